import Verif.Proofs.Text
import Verif.Props.Program
import Verif.Model.Examples

/-!
# Property C93: a `program!` text does what it says

`textOf` (Spec/Text.lean) gives the tokens of a program as it is written, `WLine.Means` what a line stands for: inputs by their names, index
lists, ranges `[a..b]` and `[a..=b]`, bit masks, functions with their arguments. `expandProgram` (Model/Expand.lean) is the macro: parser,
code generation and `QubitIndices`.
-/

namespace Verif.Props

section
variable {β : Type} [Conditionable β]

/-- The code generated from a text is the program of the lines that are meant. If some line has no meaning, there is a compile error. -/
theorem C93_text (env : Env β) (builder : List Tok) (inputs : List String) (lines : List WLine) (final : Bool)
    (hb : ∀ t ∈ builder, ¬ isEnd t) (hi : inputs.Nodup) (hl : ∀ l ∈ lines, l.Good) (hne : lines ≠ []) (p : List Reg → M β (List Reg)) :
    expandProgram env (textOf builder inputs lines final) = some p ↔
      ∃ meant, List.Forall₂ (WLine.Means env inputs) lines meant ∧ p = fun rs => program rs meant := by
  have h1 := C61_program builder inputs (lines.map WLine.spec) final hb hi (by
    intro l h
    obtain ⟨l', h1, rfl⟩ := List.mem_map.mp h
    exact WLine.spec_good (hl l' h1)) (by simpa using hne)
  unfold expandProgram
  rw [textOf_eq, h1]
  simp only [hi, if_true]
  have h2 : ∀ meant, (((lines.map WLine.spec).map LineSpec.parsed).mapM (expandLine env inputs)) = some meant ↔
      List.Forall₂ (WLine.Means env inputs) lines meant := fun meant => by
    rw [mapM_some_iff, List.forall₂_map_left_iff, List.forall₂_map_left_iff]
    exact forall₂_iff _ _ fun l h x => expandLine_means env inputs l x hi (hl l h)
  rw [Option.map_eq_some_iff]
  constructor
  · rintro ⟨meant, h3, rfl⟩
    exact ⟨meant, (h2 meant).mp h3, rfl⟩
  · rintro ⟨meant, h3, rfl⟩
    exact ⟨meant, (h2 meant).mpr h3, rfl⟩

/-- A program with a repeated input register never compiles (although the macro itself may accept it, C63). -/
theorem C93_duplicates (env : Env β) (builder : List Tok) (inputs : List String) (lines : List WLine) (final : Bool)
    (hb : ∀ t ∈ builder, ¬ isEnd t) (hi : ¬ inputs.Nodup) (hl : ∀ l ∈ lines, l.Good) (hne : lines ≠ []) :
    expandProgram env (textOf builder inputs lines final) = none := by
  have h1 := C63_exact_partial builder inputs (lines.map WLine.spec) final hb (by
    intro l h
    obtain ⟨l', h1, rfl⟩ := List.mem_map.mp h
    exact WLine.spec_good (hl l' h1)) (by simpa using hne)
  unfold expandProgram
  rw [textOf_eq, h1]
  by_cases hc : inputs.IsChain (· ≠ ·)
  · rw [if_pos hc]
    simp only [hi, if_false]
  · rw [if_neg hc]

end

/-- Running the text: the functions are called one after the other with the qubits that the lines name, and every register comes back as it was. -/
theorem C93_runs {k : ℕ} (env : Env (NB k)) (builder : List Tok) (inputs : List String) (lines : List WLine) (final : Bool)
    (hb : ∀ t ∈ builder, ¬ isEnd t) (hi : inputs.Nodup) (hl : ∀ l ∈ lines, l.Good) (hne : lines ≠ []) (meant : List (Line (NB k)))
    (hm : List.Forall₂ (WLine.Means env inputs) lines meant) (rs : List Reg) (hr : ∀ r ∈ rs, r ≠ []) (hn : rs.flatten.Nodup)
    (hv : ∀ l ∈ meant, ValidGroups rs l.groups) (s s' : NB k) (h : Runs rs meant s s') :
    ∃ p, expandProgram env (textOf builder inputs lines final) = some p ∧ p rs s = .ok rs s' :=
  ⟨_, (C93_text env builder inputs lines final hb hi hl hne _).mpr ⟨meant, hm, rfl⟩, C51_program hr hn meant hv h⟩

/-! ## the documented programs -/

/-- `ra`, `ra[i]`, `ra[a..b]`, `ra[a..=b]` with literals -/
abbrev whole (r : String) : RegSpec := ⟨r, none⟩
abbrev item (r i : String) : RegSpec := ⟨r, some (.list [[.lit i]])⟩
abbrev span (r a b : String) : RegSpec := ⟨r, some (.range [.lit a] [.lit b])⟩
abbrev spanIncl (r a b : String) : RegSpec := ⟨r, some (.rangeInclusive [.lit a] [.lit b])⟩

theorem expr_lit (s : String) : Expr [.lit s] := by
  refine ⟨by simp, by simp, ?_, ?_, ?_⟩
  · intro pre j post h
    have := congrArg List.length h
    simp at this
    omega
  · intro c j ts h; cases h
  · intro c j ts h
    cases ts with
    | nil => cases h
    | cons t ts => have := congrArg List.length h; simp at this

/-- the literals of the documented programs -/
def docNum : List Tok → Option ℕ
  | [.lit "0"] => some 0
  | [.lit "1"] => some 1
  | [.lit "2"] => some 2
  | [.lit "0b110"] => some 6
  | _ => none

/-- the functions of the documented programs: `gamma` and `gamma_inv` with and without arguments, and `not` -/
noncomputable def docEnv : Env LocalBuilder where
  num := docNum
  fn := fun f a => match f, a with
    | "gamma", none => some gamma
    | "gamma", some [.ident "true"] => some (gammaSkip true)
    | "gamma", some [.lit "0", .punct '=' true, .punct '=' false, .lit "1"] => some (gammaSkip false)
    | "gamma_inv", none => some (invertFn gamma)
    | "not", none => some (op1 Gate.not)
    | _, _ => none
  cfn := fun f a => match f, a with
    | "gamma", none => some gamma
    | "not", none => some (op1 Gate.not)
    | _, _ => none

/-- `&mut b` -/
def docBuilder : List Tok := [.punct '&' false, .ident "mut", .ident "b"]

/-- lib.rs L94-106 -/
def docText : List WLine :=
  [⟨false, none, "gamma", none, [.one (span "ra" "0" "2"), .one (item "ra" "2")]⟩,
   ⟨false, none, "gamma", none, [.many [item "ra" "0", item "rb" "0"], .one (item "ra" "2")]⟩,
   ⟨false, none, "gamma", none, [.one (item "ra" "0"), .many [item "rb" "0", item "ra" "2"]]⟩,
   ⟨true, none, "gamma", none, [.one (whole "rb"), .one (span "ra" "0" "2"), .one (item "ra" "2")]⟩,
   ⟨true, some [.lit "0b110"], "gamma", none, [.one (whole "rb"), .one (span "ra" "0" "2"), .one (item "ra" "2")]⟩]

theorem docText_good : ∀ l ∈ docText, l.Good := by
  intro l h
  simp only [docText, List.mem_cons, List.not_mem_nil, or_false] at h
  rcases h with rfl | rfl | rfl | rfl | rfl <;>
    refine ⟨?_, by simp, by simp, by simp⟩ <;>
    simp [GroupText.regs, IdxText.Good, expr_lit]

theorem means_whole (inputs : List String) (r : String) (k : ℕ) (h : inputs[k]? = some r) : (whole r).Means docNum inputs (k, none) := ⟨h, rfl⟩
theorem means_item (inputs : List String) (r i : String) (k n : ℕ) (h : inputs[k]? = some r) (hi : docNum [.lit i] = some n) :
    (item r i).Means docNum inputs (k, some [n]) := ⟨h, [n], by simp [IdxText.meaning, hi], rfl⟩
theorem means_span (inputs : List String) (r a b : String) (k m n : ℕ) (l : List ℕ) (h : inputs[k]? = some r) (ha : docNum [.lit a] = some m)
    (hb : docNum [.lit b] = some n) (hl : (List.range n).filter (fun i => m ≤ i) = l) : (span r a b).Means docNum inputs (k, some l) :=
  ⟨h, l, by simp [IdxText.meaning, ha, hb, hl], rfl⟩

/-- the lines that are meant -/
noncomputable def docMeant : List (Line LocalBuilder) :=
  [.plain gamma [[(0, some [0, 1])], [(0, some [2])]],
   .plain gamma [[(0, some [0]), (1, some [0])], [(0, some [2])]],
   .plain gamma [[(0, some [0])], [(1, some [0]), (0, some [2])]],
   .control none gamma [[(1, none)], [(0, some [0, 1])], [(0, some [2])]],
   .control (some 0b110) gamma [[(1, none)], [(0, some [0, 1])], [(0, some [2])]]]

theorem docText_mean : List.Forall₂ (WLine.Means docEnv ["ra", "rb"]) docText docMeant := by
  refine .cons ?_ (.cons ?_ (.cons ?_ (.cons ?_ (.cons ?_ .nil))))
  · exact ⟨rfl, rfl, .cons (.cons (means_span _ _ _ _ _ 0 2 _ rfl rfl rfl rfl) .nil) (.cons (.cons (means_item _ _ _ _ _ rfl rfl) .nil) .nil)⟩
  · exact ⟨rfl, rfl, .cons (.cons (means_item _ _ _ _ _ rfl rfl) (.cons (means_item _ _ _ _ _ rfl rfl) .nil))
      (.cons (.cons (means_item _ _ _ _ _ rfl rfl) .nil) .nil)⟩
  · exact ⟨rfl, rfl, .cons (.cons (means_item _ _ _ _ _ rfl rfl) .nil)
      (.cons (.cons (means_item _ _ _ _ _ rfl rfl) (.cons (means_item _ _ _ _ _ rfl rfl) .nil)) .nil)⟩
  · exact ⟨rfl, rfl, rfl, .cons (.cons (means_whole _ _ _ rfl) .nil) (.cons (.cons (means_span _ _ _ _ _ 0 2 _ rfl rfl rfl rfl) .nil)
      (.cons (.cons (means_item _ _ _ _ _ rfl rfl) .nil) .nil))⟩
  · exact ⟨rfl, rfl, ⟨6, rfl, rfl⟩, .cons (.cons (means_whole _ _ _ rfl) .nil) (.cons (.cons (means_span _ _ _ _ _ 0 2 _ rfl rfl rfl rfl) .nil)
      (.cons (.cons (means_item _ _ _ _ _ rfl rfl) .nil) .nil))⟩

/-- The first documented text gives the first documented program (`macroExample`, C82). -/
theorem C93_documented : ∃ p, expandProgram docEnv (textOf docBuilder ["ra", "rb"] docText true) = some p ∧
    macroExample = (do
      let ra ← LocalBuilder.register 3
      let rb ← LocalBuilder.register 3
      let rs ← p [ra, rb]
      match rs with
      | [ra, rb] => RegOps.mergeTwo ra rb
      | _ => throw .panic) := by
  refine ⟨fun rs => program rs docMeant, ?_, ?_⟩
  · exact (C93_text docEnv docBuilder ["ra", "rb"] docText true (by simp [docBuilder, isEnd]) (by decide) docText_good (by simp [docText]) _).mpr
      ⟨docMeant, docText_mean, rfl⟩
  · unfold macroExample docMeant
    rfl

/-- lib.rs L183-186 and examples/inverse_example.rs L28-31 -/
def inverseLines : List WLine :=
  [⟨false, none, "gamma", none, [.one (span "ra" "0" "2"), .one (item "ra" "2")]⟩,
   ⟨false, none, "gamma_inv", none, [.one (span "ra" "0" "2"), .one (item "ra" "2")]⟩]

theorem inverseLines_good : ∀ l ∈ inverseLines, l.Good := by
  intro l h
  simp only [inverseLines, List.mem_cons, List.not_mem_nil, or_false] at h
  rcases h with rfl | rfl <;>
    refine ⟨?_, by simp, by simp, by simp⟩ <;>
    simp [GroupText.regs, IdxText.Good, expr_lit]

/-- The documented text with `gamma_inv` gives `inverseExample` (C83). -/
theorem C93_documented_inverse : ∃ p, expandProgram docEnv (textOf docBuilder ["ra", "rb"] inverseLines true) = some p ∧
    inverseExample = (do
      let ra ← LocalBuilder.register 3
      let rb ← LocalBuilder.register 3
      let rs ← p [ra, rb]
      match rs with
      | [ra, rb] => RegOps.mergeTwo ra rb
      | _ => throw .panic) := by
  refine ⟨fun rs => program rs [.plain gamma [[(0, some [0, 1])], [(0, some [2])]],
     .plain (invertFn gamma) [[(0, some [0, 1])], [(0, some [2])]]], ?_, ?_⟩
  · refine (C93_text docEnv docBuilder ["ra", "rb"] inverseLines true (by simp [docBuilder, isEnd]) (by decide) inverseLines_good
      (by simp [inverseLines]) _).mpr ⟨_, ?_, rfl⟩
    refine .cons ?_ (.cons ?_ .nil)
    · exact ⟨rfl, rfl, .cons (.cons (means_span _ _ _ _ _ 0 2 _ rfl rfl rfl rfl) .nil) (.cons (.cons (means_item _ _ _ _ _ rfl rfl) .nil) .nil)⟩
    · exact ⟨rfl, rfl, .cons (.cons (means_span _ _ _ _ _ 0 2 _ rfl rfl rfl rfl) .nil) (.cons (.cons (means_item _ _ _ _ _ rfl rfl) .nil) .nil)⟩
  · unfold inverseExample
    rfl

/-- lib.rs L143-146: functions with arguments -/
def argLines : List WLine :=
  [⟨false, none, "gamma", some [.ident "true"], [.one (span "ra" "0" "2"), .one (item "ra" "2")]⟩,
   ⟨false, none, "gamma", some [.lit "0", .punct '=' true, .punct '=' false, .lit "1"], [.one (spanIncl "ra" "0" "1"), .one (item "ra" "2")]⟩]

theorem argLines_good : ∀ l ∈ argLines, l.Good := by
  intro l h
  simp only [argLines, List.mem_cons, List.not_mem_nil, or_false] at h
  rcases h with rfl | rfl <;>
    refine ⟨?_, by simp, by simp, by simp⟩ <;>
    simp [GroupText.regs, IdxText.Good, expr_lit]

/-- the documented text with arguments (an inclusive range in the second line) -/
example : expandProgram docEnv (textOf docBuilder ["ra", "rb"] argLines false) = some fun rs => program rs
    [.plain (gammaSkip true) [[(0, some [0, 1])], [(0, some [2])]], .plain (gammaSkip false) [[(0, some [0, 1])], [(0, some [2])]]] := by
  refine (C93_text docEnv docBuilder ["ra", "rb"] argLines false (by simp [docBuilder, isEnd]) (by decide) argLines_good
      (by simp [argLines]) _).mpr ⟨_, ?_, rfl⟩
  refine .cons ?_ (.cons ?_ .nil)
  · exact ⟨rfl, rfl, .cons (.cons (means_span _ _ _ _ _ 0 2 _ rfl rfl rfl rfl) .nil) (.cons (.cons (means_item _ _ _ _ _ rfl rfl) .nil) .nil)⟩
  · exact ⟨rfl, rfl, .cons (.cons ⟨rfl, _, rfl, rfl⟩ .nil) (.cons (.cons (means_item _ _ _ _ _ rfl rfl) .nil) .nil)⟩

/-- `ra, rb, ra` -/
example := C93_duplicates docEnv docBuilder ["ra", "rb", "ra"] docText true (by simp [docBuilder, isEnd]) (by decide) docText_good (by simp [docText])

/-- an unknown register: nothing is meant, a compile error -/
example : expandProgram docEnv (textOf docBuilder ["ra"] [⟨false, none, "not", none, [.one (whole "rb")]⟩] true) = none := by
  rw [Option.eq_none_iff_forall_ne_some]
  intro p h
  obtain ⟨meant, h1, -⟩ := (C93_text docEnv docBuilder ["ra"] _ true (by simp [docBuilder, isEnd]) (by decide)
    (by intro l h; simp only [List.mem_singleton] at h; subst h; exact ⟨by simp [GroupText.regs], by simp, by simp, by simp⟩) (by simp) p).mp h
  cases h1 with
  | @cons _ x _ _ h1 _ =>
    cases x with
    | plain f gs =>
      obtain ⟨-, -, h3⟩ := h1
      cases h3 with
      | cons h3 _ =>
        cases h3 with
        | @cons _ s _ _ h3 _ =>
          obtain ⟨k, i⟩ := s
          have h4 : (["ra"] : List String)[k]? = some "rb" := h3.1
          cases k <;> simp at h4
    | control m f gs => cases h1.1

/-- `cnot ra[1], rb` on two registers of two qubits -/
example : ∃ p, expandProgram (β := NB 0) ⟨docNum, fun f a => if f = "cnot" ∧ a.isNone then some (op2 cnot) else none, fun _ _ => none⟩
    (textOf docBuilder ["ra", "rb"] [⟨false, none, "cnot", none, [.one (item "ra" "1"), .one (whole "rb")]⟩] true) = some p ∧
    p [[0, 1], [2, 3]] fiveQubits =
      .ok [[0, 1], [2, 3]] { fiveQubits with pipeline := [([1, 2], ⟨2, .unitary .CNOT⟩), ([1, 3], ⟨2, .unitary .CNOT⟩)] } := by
  refine C93_runs _ docBuilder ["ra", "rb"] _ true (by simp [docBuilder, isEnd]) (by decide) ?_ (by simp) [cnotLine] ?_ [[0, 1], [2, 3]] (by simp)
    (by decide) ?_ _ _ ⟨_, cnotLine_call, rfl⟩
  · intro l h
    simp only [List.mem_singleton] at h
    subst h
    exact ⟨by simp [GroupText.regs, IdxText.Good, expr_lit], by simp, by simp, by simp⟩
  · exact .cons ⟨rfl, by simp, .cons (.cons (means_item _ _ _ _ _ rfl rfl) .nil) (.cons (.cons (means_whole _ _ _ rfl) .nil) .nil)⟩ .nil
  · intro l h
    simp only [List.mem_singleton] at h
    subst h
    exact ⟨by decide, by decide, by decide, by unfold HasPos; decide⟩

end Verif.Props
