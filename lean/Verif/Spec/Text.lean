import Verif.Model.Expand

/-!
# Specification: programs as they are written
-/

namespace Verif

/-- the indices written after a register: `[e, …]`, `[e..f]`, `[e..=f]` -/
inductive IdxText where
  | list (es : List (List Tok))
  | range (e f : List Tok)
  | rangeInclusive (e f : List Tok)

/-- a register with or without indices -/
structure RegSpec where
  name : String
  indices : Option IdxText

/-- an argument of a line: one register, or several in brackets -/
inductive GroupText where
  | one (r : RegSpec)
  | many (rs : List RegSpec)

/-- a line: `control`, its bit mask, the function, its arguments, the registers -/
structure WLine where
  control : Bool
  mask : Option (List Tok)
  function : String
  args : Option (List Tok)
  groups : List GroupText

/-! ## the tokens -/

/-- pieces with commas between them -/
def commas : List (List Tok) → List Tok
  | [] => []
  | [e] => e
  | e :: es => e ++ .punct ',' false :: commas es

/-- the token for indices -/
def IdxText.tok : IdxText → Tok
  | .list es => .group .bracket (commas es)
  | .range e f => .group .bracket (e ++ .punct '.' true :: .punct '.' false :: f)
  | .rangeInclusive e f => .group .bracket (e ++ .punct '.' true :: .punct '.' true :: .punct '=' false :: f)

/-- the tokens for a register -/
def RegSpec.toks (r : RegSpec) : List Tok := .ident r.name :: (r.indices.map IdxText.tok).toList

/-- the tokens for an argument -/
def GroupText.toks : GroupText → List Tok
  | .one r => r.toks
  | .many rs => [.group .bracket (commas (rs.map RegSpec.toks))]

/-- the tokens of a line -/
def WLine.toks (l : WLine) : List Tok :=
  (if l.control then .ident "control" :: (l.mask.map fun b => Tok.group .paren b).toList else []) ++
  (.ident l.function :: (l.args.map fun a => Tok.group .paren a).toList) ++ commas (l.groups.map GroupText.toks)

/-- lines with `;` between them -/
def semis : List (List Tok) → List Tok
  | [] => []
  | [l] => l
  | l :: ls => l ++ .punct ';' false :: semis ls

/-- a program: the builder, the input registers, the lines, with or without a final `;` -/
def textOf (builder : List Tok) (inputs : List String) (lines : List WLine) (final : Bool) : List Tok :=
  builder ++ .punct ';' false :: (commas (inputs.map fun r => [.ident r]) ++ .punct ';' false ::
    (semis (lines.map WLine.toks) ++ if final then [.punct ';' false] else []))

/-- an expression for a number: some tokens, no comma, no `..`, and no `.` or `=` where a range operator could be joined -/
structure Expr (e : List Tok) : Prop where
  ne : e ≠ []
  comma : ∀ j, Tok.punct ',' j ∉ e
  dots : ∀ pre j post, e ≠ pre ++ .punct '.' true :: .punct '.' j :: post
  first : ∀ c j ts, e = .punct c j :: ts → c ≠ '.' ∧ c ≠ '='
  last : ∀ c j ts, e = ts ++ [.punct c j] → c ≠ '.'

/-- the expressions of indices are well written; `[]` is not an index -/
def IdxText.Good : IdxText → Prop
  | .list es => ∀ e ∈ es, Expr e
  | .range e f | .rangeInclusive e f => Expr e ∧ Expr f

/-- the registers of an argument -/
def GroupText.regs : GroupText → List RegSpec
  | .one r => [r]
  | .many rs => rs

/-- a line is well written: at least one argument, a mask only after `control`, no function called `control` -/
structure WLine.Good (l : WLine) : Prop where
  regs : ∀ g ∈ l.groups, ∀ r ∈ g.regs, ∀ i ∈ r.indices, i.Good
  some : l.groups ≠ []
  mask : l.control = false → l.mask = none
  name : l.control = false → l.function ≠ "control"

/-! ## the meaning -/

variable {β : Type}

/-- the numbers that indices stand for -/
def IdxText.meaning (num : List Tok → Option ℕ) : IdxText → Option (List ℕ)
  | .list es => es.mapM num
  | .range e f => do
    let a ← num e
    let b ← num f
    some ((List.range b).filter fun i => a ≤ i)
  | .rangeInclusive e f => do
    let a ← num e
    let b ← num f
    some ((List.range (b + 1)).filter fun i => a ≤ i)

/-- register `k` is the input number `k`, with the positions written -/
def RegSpec.Means (num : List Tok → Option ℕ) (inputs : List String) (r : RegSpec) (s : Sel) : Prop :=
  inputs[s.1]? = some r.name ∧
    match r.indices with
    | none => s.2 = none
    | some i => ∃ l, i.meaning num = some l ∧ s.2 = some l

/-- what a line stands for -/
def WLine.Means (env : Env β) (inputs : List String) (l : WLine) : Line β → Prop
  | .plain f gs => l.control = false ∧ env.fn l.function l.args = some f ∧
      List.Forall₂ (fun g ss => List.Forall₂ (RegSpec.Means env.num inputs) g.regs ss) l.groups gs
  | .control mask f gs => l.control = true ∧ env.cfn l.function l.args = some f ∧
      (match l.mask with
        | none => mask = none
        | some ts => ∃ m, env.num ts = some m ∧ mask = some m) ∧
      List.Forall₂ (fun g ss => List.Forall₂ (RegSpec.Means env.num inputs) g.regs ss) l.groups gs

end Verif
