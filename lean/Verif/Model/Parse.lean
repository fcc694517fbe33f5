import Verif.Model.Fail
import Mathlib.Data.List.Basic

/-!
# The parsers of the macros

Models the parsing done by `program!` and `#[invert]` (`qip-macros/src/lib.rs` L10-214, L321-323, L356-369) on token trees as the
compiler hands them over. A `panic!` of a macro is a compile error for its user. What the macros generate from the
parsed text is modelled in `Verif.Model.Program` and `Verif.Model.Sub`.
-/

namespace Verif

/-- `proc_macro::Delimiter` -/
inductive Delim where
  | paren | brace | bracket | none
deriving DecidableEq

/-- `proc_macro::TokenTree` (identifier, punctuation with its spacing, literal, group) -/
inductive Tok where
  | ident (s : String)
  | punct (c : Char) (joint : Bool)
  | lit (s : String)
  | group (d : Delim) (ts : List Tok)

/-- a register of a line with its indices: the name and the token written after it -/
abbrev RegText := String × Option Tok

/-- the second half of `parse_register_and_indices`, lib.rs L25-32: the indices and the remaining stream -/
def parseIndices : List Tok → Option Tok × List Tok
  | [] => (none, [])
  | .punct c j :: rest => if c = ';' ∨ c = ',' then (none, .punct c j :: rest) else (some (.punct c j), rest)
  | t :: rest => (some t, rest)

theorem parseIndices_size (ts : List Tok) : sizeOf (parseIndices ts).2 ≤ sizeOf ts := by
  unfold parseIndices
  split
  · exact Nat.le_refl _
  · split
    · exact Nat.le_refl _
    · simp only [List.cons.sizeOf_spec]; omega
  · simp only [List.cons.sizeOf_spec]; omega

/-- `v.len() != 1` and `v.pop().unwrap()`, lib.rs L50-63 -/
def single (v : List RegText) : Except Fail RegText :=
  match v with
  | [r] => .ok r
  | _ => .error .panic

/-- `parse_list_of_registers`, lib.rs L38-90: the groups and the remaining stream. The two parallel vectors of the code
are one list of pairs; `parse_register_and_indices` (L11-35) is inlined for a stream that starts with an identifier. -/
def parseRegs : List Tok → Except Fail (List (List RegText) × List Tok)
  | [] => .ok ([], [])
  | .group _ inner :: rest => do
    let (sub, _) ← parseRegs inner
    let g ← sub.mapM single
    let (gs, rest) ← parseRegs rest
    .ok (g :: gs, rest)
  | .punct c _ :: rest =>
    if c = ',' then parseRegs rest
    else if c = ';' then .ok ([], rest)
    else .error .panic
  | .ident r :: rest => do
    let (gs, rest') ← parseRegs (parseIndices rest).2
    .ok ([(r, (parseIndices rest).1)] :: gs, rest')
  | .lit _ :: _ => .error .panic
termination_by ts => sizeOf ts
decreasing_by
  all_goals simp only [List.cons.sizeOf_spec, Tok.group.sizeOf_spec, Tok.punct.sizeOf_spec, Tok.ident.sizeOf_spec]
  · omega
  · omega
  · omega
  · have := parseIndices_size rest
    omega

/-- the builder expression, lib.rs L97-106: everything up to and including the first `;` -/
def parseBuilder : List Tok → List Tok × List Tok
  | [] => ([], [])
  | .punct c j :: rest =>
    if c = ';' then ([.punct c j], rest)
    else (.punct c j :: (parseBuilder rest).1, (parseBuilder rest).2)
  | t :: rest => (t :: (parseBuilder rest).1, (parseBuilder rest).2)

/-- the input registers, lib.rs L108-122 -/
def parseInputs : List Tok → Except Fail (List String × List Tok)
  | [] => .ok ([], [])
  | .punct c _ :: rest =>
    if c = ';' then .ok ([], rest)
    else if c = ',' then parseInputs rest
    else .error .panic
  | .ident r :: rest => do
    let (rs, rest) ← parseInputs rest
    .ok (r :: rs, rest)
  | _ :: _ => .error .panic

/-- `Vec::dedup` (standard library): removes consecutive repeats -/
def dedupAdj : List String → List String
  | [] => []
  | [a] => [a]
  | a :: b :: l => if a = b then dedupAdj (b :: l) else a :: dedupAdj (b :: l)

/-- a parsed line of a program -/
structure LineText where
  control : Bool
  bits : Option (List Tok)
  function : String
  args : Option (List Tok)
  groups : List (List RegText)

/-- the optional arguments after a function name, lib.rs L153-159 (and L174-180, L197-203) -/
def parseArgs : List Tok → Option (List Tok) × List Tok
  | .group .paren ts :: rest => (some ts, rest)
  | ts => (none, ts)

/-- the start of a line, lib.rs L139-211: a line without groups so far, and the remaining stream. A missing function
name stays the empty string. -/
def parseHead : List Tok → Except Fail (LineText × List Tok)
  | [] => .ok (⟨false, none, "", none, []⟩, [])
  | .ident f :: rest =>
    if f = "control" then
      match rest with
      | [] => .ok (⟨true, none, "", none, []⟩, [])
      | .ident f :: rest => .ok (⟨true, none, f, (parseArgs rest).1, []⟩, (parseArgs rest).2)
      | .group _ bits :: rest =>
        match rest with
        | [] => .ok (⟨true, some bits, "", none, []⟩, [])
        | .ident f :: rest => .ok (⟨true, some bits, f, (parseArgs rest).1, []⟩, (parseArgs rest).2)
        | _ :: _ => .error .panic
      | _ :: _ => .error .panic
    else .ok (⟨false, none, f, (parseArgs rest).1, []⟩, (parseArgs rest).2)
  | _ :: _ => .error .panic

/-- one line, lib.rs L139-214, and the uses of `register_list` that can panic: `register_list[start..]` (L265) and
`register_list.len() - 1` (L274-278, evaluated unless exactly one register is left; an underflow) -/
def parseLine (ts : List Tok) : Except Fail (LineText × List Tok) := do
  let (l, rest) ← parseHead ts
  let (gs, rest) ← parseRegs rest
  if gs.length = 0 then .error .panic
  else .ok ({ l with groups := gs }, rest)

/-- the loop over lines, lib.rs L139, L321-323. The first argument bounds the number of lines (a line uses up at least
one token, so the number of tokens plus one suffices). -/
def parseLines : ℕ → List Tok → Except Fail (List LineText)
  | 0, _ => .error .panic
  | k + 1, ts => do
    let (l, rest) ← parseLine ts
    if rest.isEmpty then .ok [l]
    else do
      let ls ← parseLines k rest
      .ok (l :: ls)

/-- a parsed program -/
structure ProgramText where
  builder : List Tok
  inputs : List String
  lines : List LineText

/-- `program`, lib.rs L93-323 -/
def parseProgram (ts : List Tok) : Except Fail ProgramText := do
  let (inputs, rest) ← parseInputs (parseBuilder ts).2
  if inputs.length ≠ (dedupAdj inputs).length then .error .panic
  else do
    let ls ← parseLines (rest.length + 1) rest
    .ok ⟨(parseBuilder ts).1, dedupAdj inputs, ls⟩

/-- `parse_function_args`, lib.rs L356-369 -/
def parseFunctionArgs : List Tok → List String
  | [] => []
  | .ident s :: .punct c joint :: rest =>
    if c = ':' ∧ joint = false then s :: parseFunctionArgs (.punct c joint :: rest)
    else parseFunctionArgs (.punct c joint :: rest)
  | _ :: rest => parseFunctionArgs rest

end Verif
