import Verif.Model.Hash

/-!
# Property C53: equal circuit objects hash equally

Refuted: `0.0 == -0.0`, but they print, and so hash, differently; and NaN makes equality irreflexive although the types
implement `Eq`. Proved: these are the only exceptions.
-/

namespace Verif.Props

/-- C53 -/
def C53_claim (dec : ℚ → String) : Prop :=
  (∀ a b : ObjTypeF, a.eq b = true → a.hash dec = b.hash dec) ∧ (∀ a : ObjTypeF, a.eq a = true) ∧
  ∀ a b : ObjTypeF, a.eq b = b.eq a

/-! ## Spec: the floats an object contains -/

/-- the floats in a rotation -/
def RotF.floats : RotF → List Flt
  | .floating f => [f]
  | .piRational _ => []

/-- the floats in an object, in order -/
def floatsOf : ObjTypeF → List Flt
  | .unitary (.Rz r) => RotF.floats r
  | .unitary (.GlobalPhase r) => RotF.floats r
  | .unitary (.MAT d) => d.flatMap fun c => [c.1, c.2]
  | _ => []

/-! ## floats -/

theorem flt_symm (a b : Flt) : a.eq b = b.eq a := by
  have h : ∀ x y : Flt, x.eq y = true → y.eq x = true := fun x y h => by
    cases x <;> cases y <;> simp_all [Flt.eq]
  exact Bool.eq_iff_iff.mpr ⟨h a b, h b a⟩

theorem flt_trans (a b c : Flt) (h1 : a.eq b = true) (h2 : b.eq c = true) : a.eq c = true := by
  cases a <;> cases b <;> cases c <;> simp_all [Flt.eq]

theorem flt_refl (a : Flt) : a.eq a = true ↔ a ≠ .nan := by
  cases a <;> simp [Flt.eq]

/-- equal floats are identical or are zeros -/
theorem flt_cases (a b : Flt) (h : a.eq b = true) : a = b ∨ ∃ s t, a = .zero s ∧ b = .zero t := by
  cases a <;> cases b <;> simp_all [Flt.eq]

theorem flt_hash (dec : ℚ → String) (a b : Flt) (h : a.eq b = true) : hashP dec a = hashP dec b ↔ a = b := by
  rcases flt_cases a b h with rfl | ⟨s, t, rfl, rfl⟩
  · simp
  · cases s <;> cases t <;> simp [hashP, Flt.display]

/-! ## objects -/

theorem rot_symm (a b : RotF) : a.eq b = b.eq a := by
  have h : ∀ x y : RotF, x.eq y = true → y.eq x = true := fun x y h => by
    cases x <;> cases y <;> simp_all [RotF.eq]
    rw [flt_symm]; exact h
  exact Bool.eq_iff_iff.mpr ⟨h a b, h b a⟩

theorem rot_trans (a b c : RotF) (h1 : a.eq b = true) (h2 : b.eq c = true) : a.eq c = true := by
  cases a <;> cases b <;> cases c <;> simp_all [RotF.eq]
  exact flt_trans _ _ _ h1 h2

theorem rot_refl (a : RotF) : a.eq a = true ↔ Flt.nan ∉ RotF.floats a := by
  cases a with
  | floating f =>
    show f.eq f = true ↔ Flt.nan ∉ [f]
    rw [flt_refl, List.mem_singleton, ne_comm]
  | piRational q => simp [RotF.eq, RotF.floats]

theorem rot_hash (dec : ℚ → String) (a b : RotF) (h : a.eq b = true) : a.hash dec = b.hash dec ↔ a = b := by
  cases a <;> cases b <;> simp_all [RotF.eq, RotF.hash, flt_hash]

theorem cplx_hash (dec : ℚ → String) (a b : Flt × Flt) (h : cplxEq a b = true) :
    (hashP dec a.1 = hashP dec b.1 ∧ hashP dec a.2 = hashP dec b.2) ↔ a = b := by
  simp only [cplxEq, Bool.and_eq_true] at h
  rw [flt_hash dec _ _ h.1, flt_hash dec _ _ h.2, Prod.ext_iff]

theorem mat_symm (a b : List (Flt × Flt)) : matEq a b = matEq b a := by
  induction a generalizing b with
  | nil => cases b <;> rfl
  | cons x a ih => cases b with
    | nil => rfl
    | cons y b => simp [matEq, cplxEq, ih b, flt_symm x.1, flt_symm x.2]

theorem mat_trans (a b c : List (Flt × Flt)) (h1 : matEq a b = true) (h2 : matEq b c = true) : matEq a c = true := by
  induction a generalizing b c with
  | nil => cases b <;> cases c <;> simp_all [matEq]
  | cons x a ih =>
    cases b with
    | nil => simp [matEq] at h1
    | cons y b =>
      cases c with
      | nil => simp [matEq] at h2
      | cons z c =>
        simp only [matEq, cplxEq, Bool.and_eq_true] at h1 h2 ⊢
        exact ⟨⟨flt_trans _ _ _ h1.1.1 h2.1.1, flt_trans _ _ _ h1.1.2 h2.1.2⟩, ih _ _ h1.2 h2.2⟩

theorem mat_refl (a : List (Flt × Flt)) : matEq a a = true ↔ Flt.nan ∉ a.flatMap fun c => [c.1, c.2] := by
  induction a with
  | nil => simp [matEq]
  | cons x a ih =>
    simp only [matEq, cplxEq, Bool.and_eq_true, ih, flt_refl, List.flatMap_cons, List.mem_append, List.mem_cons,
      List.not_mem_nil, or_false, not_or]
    constructor
    · rintro ⟨⟨h1, h2⟩, h3⟩
      exact ⟨⟨fun h => h1 h.symm, fun h => h2 h.symm⟩, h3⟩
    · rintro ⟨⟨h1, h2⟩, h3⟩
      exact ⟨⟨fun h => h1 h.symm, fun h => h2 h.symm⟩, h3⟩

theorem mat_hash (dec : ℚ → String) (a b : List (Flt × Flt)) (h : matEq a b = true) :
    (a.flatMap fun c => hashP dec c.1 ++ hashP dec c.2) = (b.flatMap fun c => hashP dec c.1 ++ hashP dec c.2) ↔ a = b := by
  induction a generalizing b with
  | nil => cases b <;> simp_all [matEq]
  | cons x a ih =>
    cases b with
    | nil => simp [matEq] at h
    | cons y b =>
      simp only [matEq, Bool.and_eq_true] at h
      rw [List.flatMap_cons, List.flatMap_cons, List.cons.injEq, ← ih b h.2, ← cplx_hash dec x y h.1]
      simp only [hashP, List.cons_append, List.nil_append, List.cons.injEq, and_true]
      tauto

/-! ## The property -/

/-- Exactly when equal objects hash equally: when they are identical, that is, when no zeros of different sign meet. -/
theorem C53_exact_partial (dec : ℚ → String) (a b : ObjTypeF) (h : a.eq b = true) : a.hash dec = b.hash dec ↔ a = b := by
  cases a with
  | meas a =>
    cases b with
    | meas b => simp_all [ObjTypeF.eq, ObjTypeF.hash]
    | unitary b => simp [ObjTypeF.eq] at h
  | unitary a =>
    cases b with
    | meas b => simp [ObjTypeF.eq] at h
    | unitary b =>
      cases a <;> cases b <;> simp_all [ObjTypeF.eq, ObjTypeF.hash, UObjF.eq, UObjF.hash, rot_hash]
      exact mat_hash dec _ _ h

/-- Objects without float zeros (or without floats) that compare equal are identical and hash equally. -/
theorem C53_no_zero_partial (dec : ℚ → String) (a b : ObjTypeF) (h : a.eq b = true) (hz : ∀ s, Flt.zero s ∉ floatsOf a) :
    a.hash dec = b.hash dec := by
  have key : ∀ x y : Flt, x.eq y = true → (∀ s, x ≠ .zero s) → x = y := fun x y hxy hx => by
    rcases flt_cases x y hxy with h | ⟨s, _, h, -⟩
    · exact h
    · exact absurd h (hx s)
  have rotk : ∀ x y : RotF, x.eq y = true → (∀ s, Flt.zero s ∉ RotF.floats x) → x = y := fun x y hxy hx => by
    cases x with
    | floating f =>
      cases y with
      | floating g => rw [key f g hxy fun s hs => hx s (by simp [RotF.floats, hs])]
      | piRational q => simp [RotF.eq] at hxy
    | piRational q =>
      cases y with
      | floating g => simp [RotF.eq] at hxy
      | piRational r => simp_all [RotF.eq]
  have matk : ∀ x y : List (Flt × Flt), matEq x y = true → (∀ s, Flt.zero s ∉ x.flatMap fun c => [c.1, c.2]) → x = y := by
    intro x
    induction x with
    | nil => intro y hxy _; cases y <;> simp_all [matEq]
    | cons u x ih =>
      intro y hxy hx
      cases y with
      | nil => simp [matEq] at hxy
      | cons v y =>
        simp only [matEq, cplxEq, Bool.and_eq_true] at hxy
        rw [ih y hxy.2 fun s hs => hx s (by simp only [List.flatMap_cons, List.mem_append]; exact .inr hs)]
        have h1 := key _ _ hxy.1.1 fun s hs => hx s (by simp [hs])
        have h2 := key _ _ hxy.1.2 fun s hs => hx s (by simp [hs])
        rw [Prod.ext h1 h2]
  rw [C53_exact_partial dec a b h]
  cases a with
  | meas a =>
    cases b with
    | meas b => simp_all [ObjTypeF.eq]
    | unitary b => simp [ObjTypeF.eq] at h
  | unitary a =>
    cases b with
    | meas b => simp [ObjTypeF.eq] at h
    | unitary b =>
      cases a <;> cases b <;> simp only [ObjTypeF.eq, UObjF.eq, Bool.false_eq_true] at h <;> try rfl
      · rw [rotk _ _ h hz]
      · rw [matk _ _ h hz]
      · rw [rotk _ _ h hz]

/-- Equality is symmetric and transitive for all objects, and reflexive exactly for those without NaN. -/
theorem C53_equivalence_partial :
    (∀ a b : ObjTypeF, a.eq b = b.eq a) ∧ (∀ a b c : ObjTypeF, a.eq b = true → b.eq c = true → a.eq c = true) ∧
    ∀ a : ObjTypeF, a.eq a = true ↔ Flt.nan ∉ floatsOf a := by
  refine ⟨?_, ?_, ?_⟩
  · intro a b
    cases a with
    | meas a =>
      cases b with
      | meas b => cases a <;> cases b <;> rfl
      | unitary b => rfl
    | unitary a =>
      cases b with
      | meas b => rfl
      | unitary b =>
        cases a <;> cases b <;> first | rfl | exact rot_symm _ _ | exact mat_symm _ _
  · intro a b c h1 h2
    cases a with
    | meas a =>
      cases b with
      | meas b => cases c <;> simp_all [ObjTypeF.eq]
      | unitary b => simp [ObjTypeF.eq] at h1
    | unitary a =>
      cases b with
      | meas b => simp [ObjTypeF.eq] at h1
      | unitary b =>
        cases c with
        | meas c => simp [ObjTypeF.eq] at h2
        | unitary c =>
          cases a <;> cases b <;> simp only [ObjTypeF.eq, UObjF.eq, Bool.false_eq_true] at h1 <;>
            cases c <;> simp only [ObjTypeF.eq, UObjF.eq, Bool.false_eq_true] at h2 ⊢
          · exact rot_trans _ _ _ h1 h2
          · exact mat_trans _ _ _ h1 h2
          · exact rot_trans _ _ _ h1 h2
  · intro a
    cases a with
    | meas a => simp [ObjTypeF.eq, floatsOf]
    | unitary a => cases a <;> simp [ObjTypeF.eq, UObjF.eq, floatsOf, rot_refl, mat_refl]

/-- The two zeros: equal, but hashed differently. -/
theorem C53_zero_refuted (dec : ℚ → String) :
    ¬ ∀ a b : ObjTypeF, a.eq b = true → a.hash dec = b.hash dec := by
  intro h
  have := h (.unitary (.Rz (.floating (.zero false)))) (.unitary (.Rz (.floating (.zero true)))) rfl
  simp [ObjTypeF.hash, UObjF.hash, RotF.hash, hashP, Flt.display] at this

/-- NaN: an object that does not equal itself. -/
theorem C53_nan_refuted : ¬ ∀ a : ObjTypeF, a.eq a = true := by
  intro h
  have := h (.unitary (.GlobalPhase (.floating .nan)))
  simp [ObjTypeF.eq, UObjF.eq, RotF.eq, Flt.eq] at this

theorem C53_refuted (dec : ℚ → String) : ¬ C53_claim dec := fun h => C53_zero_refuted dec h.1

/-- Different kinds of gates are told apart by the hash, whatever their parameters. -/
theorem C53_kinds_partial (dec : ℚ → String) (a b : UObjF) (h : (ObjTypeF.unitary a).hash dec = (ObjTypeF.unitary b).hash dec) :
    a.ctorIdx = b.ctorIdx := by
  cases a <;> cases b <;> simp_all [ObjTypeF.hash, UObjF.hash] <;> rfl

/-- for example, 3/8 is fed as its continued fraction -/
example (dec : ℚ → String) : (RotF.piRational ⟨3, 8, by decide, by decide⟩).hash dec = [.i64 0, .i64 2, .i64 1, .i64 2, .i64 0] := rfl

/-- The bound on the rounds of Euclid's algorithm in the model of the ratio's hash is never reached. -/
theorem C53_ratio_rounds_partial (k : ℕ) (num den : ℤ) (h0 : 0 ≤ den) (hk : den < k) : (hashRatio k num den).getLast? = some (.i64 0) := by
  induction k generalizing num den with
  | zero => omega
  | succ k ih =>
    unfold hashRatio
    by_cases hd : den = 0
    · rw [if_pos hd, hd]; rfl
    · rw [if_neg hd]
      have h1 := Int.fmod_nonneg_of_pos num (b := den) (by omega)
      have h2 := Int.fmod_lt_of_pos num (b := den) (by omega)
      have h3 := ih den (num.fmod den) h1 (by omega)
      rw [List.getLast?_cons, h3]
      rfl

example := C53_ratio_rounds_partial 10 3 8 (by decide) (by decide)

example (dec : ℚ → String) := C53_exact_partial dec (.unitary (.MAT [(.zero true, .fin 1)])) (.unitary (.MAT [(.zero false, .fin 1)])) rfl
example (dec : ℚ → String) : (ObjTypeF.unitary (.MAT [(.fin 1, .inf true)])).hash dec = (ObjTypeF.unitary (.MAT [(.fin 1, .inf true)])).hash dec :=
  C53_no_zero_partial dec _ _ (by simp [ObjTypeF.eq, UObjF.eq, matEq, cplxEq, Flt.eq]) (by simp [floatsOf])

end Verif.Props
