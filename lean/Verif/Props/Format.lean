import Verif.Model.Format
import Verif.Model.Ops

/-!
# Property C94: the debug text of an op shows what it is, up to its entries
-/

namespace Verif.Props
open MatrixOp

variable {K : Type}

/-- an op without its entries -/
def skeleton : MatrixOp K → MatrixOp Unit
  | .matrix i _ => .matrix i []
  | .sparse i _ => .sparse i []
  | .swap n i => .swap n i
  | .control n i op => .control n i (skeleton op)

/-- swaps have two halves, and the indices of a controlled op are the control indices and those of the op, as the constructors of
state_ops/matrix_ops.rs make them -/
def Regular : MatrixOp K → Prop
  | .matrix _ _ | .sparse _ _ => True
  | .swap n i => i.length = 2 * n
  | .control n i op => n ≤ i.length ∧ i.drop n = op.indices ∧ Regular op

/-- no slice is too long -/
def Slices : MatrixOp K → Prop
  | .control n i op => n ≤ i.length ∧ Slices op
  | _ => True

/-! ## reading the text -/

theorem numText_inj {a b : ℕ} (h : numText a = numText b) : a = b := by
  rw [← Nat.ofDigitChars_ten_toDigits (n := a), ← Nat.ofDigitChars_ten_toDigits (n := b)]
  exact congrArg (fun l => Nat.ofDigitChars 10 l 0) h

theorem numText_digit {a : ℕ} {c : Char} (h : c ∈ numText a) : c.isDigit := Nat.isDigit_of_mem_toDigits (by decide) (by decide) h

theorem numText_ne (a : ℕ) : numText a ≠ [] := Nat.toDigits_ne_nil

/-- two texts with the same first separator -/
theorem split_first {c : Char} {a a' b b' : List Char} (ha : c ∉ a) (ha' : c ∉ a') (h : a ++ c :: b = a' ++ c :: b') : a = a' ∧ b = b' := by
  induction a generalizing a' with
  | nil =>
    cases a' with
    | nil => simpa using h
    | cons x a' =>
      simp only [List.nil_append, List.cons_append, List.cons.injEq] at h
      exact absurd List.mem_cons_self (h.1 ▸ ha')
  | cons x a ih =>
    cases a' with
    | nil =>
      simp only [List.nil_append, List.cons_append, List.cons.injEq] at h
      exact absurd List.mem_cons_self (h.1 ▸ ha)
    | cons y a' =>
      simp only [List.cons_append, List.cons.injEq] at h
      obtain ⟨h1, h2⟩ := ih (fun hm => ha (List.mem_cons_of_mem _ hm)) (fun hm => ha' (List.mem_cons_of_mem _ hm)) h.2
      exact ⟨by rw [h.1, h1], h2⟩

/-- ... the same last separator -/
theorem split_last {c : Char} {a a' b b' : List Char} (hb : c ∉ b) (hb' : c ∉ b') (h : a ++ c :: b = a' ++ c :: b') : a = a' ∧ b = b' := by
  have h' := congrArg List.reverse h
  simp only [List.reverse_append, List.reverse_cons, List.append_assoc, List.singleton_append] at h'
  obtain ⟨h1, h2⟩ := split_first (by simpa using hb) (by simpa using hb') h'
  exact ⟨List.reverse_injective h2, List.reverse_injective h1⟩

theorem comma_numText (a : ℕ) : ',' ∉ numText a := fun h => absurd (numText_digit h) (by decide)

theorem joinText_nil {l : List ℕ} (h : joinText l = []) : l = [] := by
  match l with
  | [] => rfl
  | [a] => exact absurd h (numText_ne a)
  | a :: b :: l => simp [joinText] at h

theorem joinText_inj {l l' : List ℕ} (h : joinText l = joinText l') : l = l' := by
  induction l generalizing l' with
  | nil => exact (joinText_nil h.symm).symm
  | cons a l ih =>
    cases l' with
    | nil => exact joinText_nil h
    | cons a' l' =>
      cases l with
      | nil =>
        cases l' with
        | nil => rw [numText_inj h]
        | cons b' l' =>
          have h' : numText a = numText a' ++ ',' :: ' ' :: joinText (b' :: l') := h
          exact absurd (by rw [h']; simp) (comma_numText a)
      | cons b l =>
        cases l' with
        | nil =>
          have h' : numText a ++ ',' :: ' ' :: joinText (b :: l) = numText a' := h
          exact absurd (by rw [← h']; simp) (comma_numText a')
        | cons b' l' =>
          have h' : numText a ++ ',' :: ' ' :: joinText (b :: l) = numText a' ++ ',' :: ' ' :: joinText (b' :: l') := h
          obtain ⟨h1, h2⟩ := split_first (comma_numText a) (comma_numText a') h'
          rw [numText_inj h1, ih (List.cons.inj h2).2]

theorem bracket_joinText (l : List ℕ) : '[' ∉ joinText l := by
  induction l with
  | nil => simp [joinText]
  | cons a l ih =>
    have ha : '[' ∉ numText a := fun h => absurd (numText_digit h) (by decide)
    cases l with
    | nil => exact ha
    | cons b l =>
      show '[' ∉ numText a ++ ',' :: ' ' :: joinText (b :: l)
      simp only [List.mem_append, List.mem_cons, not_or]
      exact ⟨ha, by decide, by decide, ih⟩

theorem writeText_inj {n n' : List Char} {l l' : List ℕ} (h : writeText n l = writeText n' l') : n = n' ∧ l = l' := by
  obtain ⟨h1, h2⟩ := split_last (c := '[') (by simp [bracket_joinText]) (by simp [bracket_joinText]) h
  exact ⟨h1, joinText_inj (List.append_cancel_right h2)⟩

/-! ## the property -/

/-- The debug text exists exactly if no controlled op has more control indices than indices. -/
theorem C94_defined (op : MatrixOp K) : (op.debugText).isSome ↔ Slices op := by
  induction op with
  | matrix i d => simp [debugText, Slices]
  | sparse i d => simp [debugText, Slices]
  | swap n i => simp [debugText, Slices]
  | control n i op ih =>
    unfold debugText Slices
    rw [← ih]
    cases op.debugText with
    | none => simp
    | some t => by_cases hn : n ≤ i.length <;> simp [hn]

theorem Regular.slices {op : MatrixOp K} (h : Regular op) : Slices op := by
  induction op with
  | matrix i d => trivial
  | sparse i d => trivial
  | swap n i => trivial
  | control n i op ih => exact ⟨h.1, ih h.2.2⟩

theorem skeleton_debug (op : MatrixOp K) : (skeleton op).debugText = op.debugText := by
  induction op with
  | matrix i d => rfl
  | sparse i d => rfl
  | swap n i => rfl
  | control n i op ih => unfold skeleton debugText; rw [ih]

theorem skeleton_inj (op op' : MatrixOp K) (h : Regular op) (h' : Regular op') (t : List Char) (ht : op.debugText = some t)
    (ht' : op'.debugText = some t) : skeleton op = skeleton op' := by
  induction op generalizing op' t with
  | matrix i d =>
    have e := Option.some.inj ht
    cases op' with
    | matrix i' d' =>
      have := writeText_inj (e.trans (Option.some.inj ht').symm)
      simp [skeleton, this.2]
    | sparse i' d' => exact absurd (writeText_inj (e.trans (Option.some.inj ht').symm)).1 (by decide)
    | swap n' i' => exact absurd (writeText_inj (e.trans (Option.some.inj ht').symm)).1 (by decide)
    | control n' i' op' =>
      unfold debugText at ht'
      cases hi : op'.debugText with
      | none => rw [hi] at ht'; cases ht'
      | some u =>
        rw [hi] at ht'
        simp only [Option.bind_eq_bind, Option.bind_some, h'.1, if_true] at ht'
        have := (writeText_inj (e.trans (Option.some.inj ht').symm)).1
        simp at this
  | sparse i d =>
    have e := Option.some.inj ht
    cases op' with
    | matrix i' d' => exact absurd (writeText_inj (e.trans (Option.some.inj ht').symm)).1 (by decide)
    | sparse i' d' =>
      have := writeText_inj (e.trans (Option.some.inj ht').symm)
      simp [skeleton, this.2]
    | swap n' i' => exact absurd (writeText_inj (e.trans (Option.some.inj ht').symm)).1 (by decide)
    | control n' i' op' =>
      unfold debugText at ht'
      cases hi : op'.debugText with
      | none => rw [hi] at ht'; cases ht'
      | some u =>
        rw [hi] at ht'
        simp only [Option.bind_eq_bind, Option.bind_some, h'.1, if_true] at ht'
        have := (writeText_inj (e.trans (Option.some.inj ht').symm)).1
        simp at this
  | swap n i =>
    have e := Option.some.inj ht
    cases op' with
    | matrix i' d' => exact absurd (writeText_inj (e.trans (Option.some.inj ht').symm)).1 (by decide)
    | sparse i' d' => exact absurd (writeText_inj (e.trans (Option.some.inj ht').symm)).1 (by decide)
    | swap n' i' =>
      have e2 := (writeText_inj (e.trans (Option.some.inj ht').symm)).2
      have h1 : i.length = 2 * n := h
      have h2 : i'.length = 2 * n' := h'
      subst e2
      have : n = n' := by omega
      rw [this]
    | control n' i' op' =>
      unfold debugText at ht'
      cases hi : op'.debugText with
      | none => rw [hi] at ht'; cases ht'
      | some u =>
        rw [hi] at ht'
        simp only [Option.bind_eq_bind, Option.bind_some, h'.1, if_true] at ht'
        have := (writeText_inj (e.trans (Option.some.inj ht').symm)).1
        simp at this
  | control n i op ih =>
    unfold debugText at ht
    cases hi : op.debugText with
    | none => rw [hi] at ht; cases ht
    | some u =>
      rw [hi] at ht
      simp only [Option.bind_eq_bind, Option.bind_some, h.1, if_true] at ht
      have e := Option.some.inj ht
      cases op' with
      | matrix i' d' => have := (writeText_inj (e.trans (Option.some.inj ht').symm)).1; simp at this
      | sparse i' d' => have := (writeText_inj (e.trans (Option.some.inj ht').symm)).1; simp at this
      | swap n' i' => have := (writeText_inj (e.trans (Option.some.inj ht').symm)).1; simp at this
      | control n' i' op' =>
        unfold debugText at ht'
        cases hi' : op'.debugText with
        | none => rw [hi'] at ht'; cases ht'
        | some u' =>
          rw [hi'] at ht'
          simp only [Option.bind_eq_bind, Option.bind_some, h'.1, if_true] at ht'
          obtain ⟨e1, e2⟩ := writeText_inj (e.trans (Option.some.inj ht').symm)
          simp only [List.cons.injEq, true_and] at e1
          have e3 := List.append_cancel_right e1
          subst e3
          have e4 := ih op' h.2.2 h'.2.2 u hi hi'
          have hn : n = n' := by
            have := congrArg List.length e2
            simp only [List.length_take] at this
            have h1 := h.1
            have h2 := h'.1
            omega
          have h5 : op.indices = op'.indices := by
            have : ∀ o : MatrixOp K, (skeleton o).indices = o.indices := fun o => by cases o <;> rfl
            rw [← this op, ← this op', e4]
          have h6 : i = i' := by
            rw [← List.take_append_drop n i, ← List.take_append_drop n' i', e2, h.2.1, h'.2.1, h5]
          unfold skeleton
          rw [e4, hn, h6]

/-- Two ops as the constructors make them have the same debug text exactly if they differ at most in their entries. -/
theorem C94_distinguishes (op op' : MatrixOp K) (h : Regular op) (h' : Regular op') :
    op.debugText = op'.debugText ↔ skeleton op = skeleton op' := by
  constructor
  · intro he
    obtain ⟨t, ht⟩ := Option.isSome_iff_exists.mp ((C94_defined op).mpr h.slices)
    exact skeleton_inj op op' h h' t ht (he ▸ ht)
  · intro he
    rw [← skeleton_debug op, ← skeleton_debug op', he]

/-- The constructors make such ops. -/
theorem C94_constructors (op : MatrixOp K) :
    (∀ i (d : List K), makeMatrixOp i d = .ok op → Regular op) ∧
    (∀ i (d : List (List (ℕ × K))) o, makeSparseMatrixOp i d o = .ok op → Regular op) ∧
    (∀ a b, makeSwapOp a b = .ok op → Regular op) ∧
    ∀ c (x : MatrixOp K), Regular x → makeControlOp c x = .ok op → Regular op := by
  refine ⟨?_, ?_, ?_, ?_⟩
  · intro i d h
    unfold makeMatrixOp at h
    simp only [] at h
    split_ifs at h
    cases h
    trivial
  · intro i d o h
    unfold makeSparseMatrixOp at h
    simp only [] at h
    split_ifs at h
    cases o with
    | bigEndian => cases h; trivial
    | littleEndian =>
      simp only [] at h
      cases hr : reorderRows i.length d with
      | none => rw [hr] at h; cases h
      | some d' => rw [hr] at h; cases h; trivial
  · intro a b h
    unfold makeSwapOp at h
    split_ifs at h with h1 h2
    cases h
    show (a ++ b).length = 2 * a.length
    rw [List.length_append]
    omega
  · intro c x hx h
    unfold makeControlOp at h
    split_ifs at h
    cases x with
    | matrix i d => cases h; exact ⟨by simp, by simp, trivial⟩
    | sparse i d => cases h; exact ⟨by simp, by simp, trivial⟩
    | swap n i => cases h; exact ⟨by simp, by simp, hx⟩
    | control n i op =>
      cases h
      obtain ⟨h1, h2, h3⟩ := hx
      refine ⟨by rw [List.length_append]; omega, ?_, h3⟩
      rw [List.drop_append, List.drop_eq_nil_of_le (by omega), List.nil_append, Nat.add_sub_cancel_left, h2]

/-- A controlled op with too few indices has no debug text: formatting panics. -/
example : (MatrixOp.control 2 [0] (.matrix [1] [0, 1, 1, 0]) : MatrixOp ℕ).debugText = none := rfl

/-- `C(Matrix[10])[2, 3]` -/
example : (MatrixOp.control 2 [2, 3, 10] (.matrix [10] [0, 1, 1, 0]) : MatrixOp ℕ).debugText = some "C(Matrix[10])[2, 3]".toList := by
  simp [debugText, writeText, joinText, numText, Nat.toDigits, Nat.toDigitsCore, Nat.digitChar]

example := C94_distinguishes (.control 2 [2, 3, 10] (.matrix [10] [0, 1, 1, 0]) : MatrixOp ℕ) (.control 1 [2, 10] (.matrix [10] [0, 1, 1, 0]))
  ⟨by simp, rfl, trivial⟩ ⟨by simp, rfl, trivial⟩

end Verif.Props
