import Verif.Model.Parse
import Verif.Model.Program

/-!
# From the text of `program!` to the program

Models the step from the parsed text (`Verif.Model.Parse`) to the generated code (`Verif.Model.Program`): `qip-macros/src/lib.rs` L92-354 and
`QubitIndices` (`qip/src/macros/program.rs` L24-66). What the Rust compiler does with the expressions and names that the macro copies into the
generated code is modelled for arrays of numbers and of one range; the value of a number and the functions are given by an `Env`. `none` is an
error at compile time.
-/

namespace Verif

/-- `QubitIndices`, macros/program.rs L25-31: the iterators it is made from -/
inductive QubitIndices where
  /-- `From<It>`, L33-40, for an array -/
  | array (l : List ℕ)
  /-- `From<[Range<usize>; 1]>`, L54-59 -/
  | range (a b : ℕ)
  /-- `From<[RangeInclusive<usize>; 1]>`, L61-66 -/
  | rangeInclusive (a b : ℕ)

/-- `IntoIterator for QubitIndices`, macros/program.rs L42-52 -/
def QubitIndices.intoIter : QubitIndices → List ℕ
  | .array l => l
  | .range a b => List.range' a (b - a)
  | .rangeInclusive a b => List.range' a (b + 1 - a)

/-- the elements of an array expression (Rust syntax): what is between the commas; a comma at the end is allowed -/
def commaPieces : List Tok → List (List Tok)
  | [] => []
  | .punct ',' _ :: ts => [] :: commaPieces ts
  | t :: ts =>
    match commaPieces ts with
    | [] => [[t]]
    | p :: ps => (t :: p) :: ps

/-- a range expression `a..b` or (`true`) `a..=b` (Rust syntax) -/
def rangeOf : List Tok → Option (List Tok × Bool × List Tok)
  | [] => none
  | .punct '.' true :: .punct '.' true :: .punct '=' _ :: ts => some ([], true, ts)
  | .punct '.' true :: .punct '.' _ :: ts => some ([], false, ts)
  | t :: ts => (rangeOf ts).map fun p => (t :: p.1, p.2)

/-- `QubitIndices::from({s})` for the token `s` after a register, lib.rs L224, L305: an array of numbers or of one range. Other forms (a variable
that is an iterator) are not modelled. -/
def evalIndices (num : List Tok → Option ℕ) : Tok → Option QubitIndices
  | .group .bracket ts =>
    match commaPieces ts with
    | [p] =>
      match rangeOf p with
      | some (a, incl, b) => do
        let a ← num a
        let b ← num b
        some (if incl then .rangeInclusive a b else .range a b)
      | none => (num p).map fun i => .array [i]
    | ps => (ps.mapM fun p => if (rangeOf p).isSome then none else num p).map .array
  | _ => none

/-- what the names and expressions of a program stand for: the value of an expression, and the function of a name with arguments, called with
the builder of the program or with a conditioned one (lib.rs L247-286) -/
structure Env (β : Type) where
  num : List Tok → Option ℕ
  fn : String → Option (List Tok) → Option (List Reg → M β (List Reg))
  cfn : String → Option (List Tok) → Option (List Reg → M (Conditioned β) (List Reg))

variable {β : Type}

/-- a register of a line: the variable of this name, lib.rs L222-228, L303-309 -/
def expandSel (env : Env β) (inputs : List String) (r : RegText) : Option Sel :=
  if r.1 ∈ inputs then
    match r.2 with
    | none => some (inputs.idxOf r.1, none)
    | some t => (evalIndices env.num t).map fun q => (inputs.idxOf r.1, some q.intoIter)
  else none

/-- a line, lib.rs L216-319 -/
def expandLine (env : Env β) (inputs : List String) (l : LineText) : Option (Line β) := do
  let groups ← l.groups.mapM fun g => g.mapM (expandSel env inputs)
  if l.control then
    let mask ← match l.bits with
      | none => some none
      | some ts => (env.num ts).map some
    let f ← env.cfn l.function l.args
    some (.control mask f groups)
  else
    let f ← env.fn l.function l.args
    some (.plain f groups)

/-- `program!`, lib.rs L93-353: the code generated from a text, as a function of the input registers. Of two inputs with the same name the second
would be split again (L134-136), which does not type check. -/
def expandProgram [Conditionable β] (env : Env β) (ts : List Tok) : Option (List Reg → M β (List Reg)) :=
  match parseProgram ts with
  | .error _ => none
  | .ok p =>
    if p.inputs.Nodup then
      (p.lines.mapM (expandLine env p.inputs)).map fun lines rs => program rs lines
    else none

end Verif
