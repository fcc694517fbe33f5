import Verif.Proofs.IeeeSample
import Verif.Props.Ieee

/-! # Computed probabilities in rounded arithmetic -/

namespace Verif
open MatrixOp

section rel
variable {P Q : Type}

theorem mapM_rel {α β γ : Type} (T : β → γ → Prop) (F : α → Option β) (F' : α → Option γ) (l : List α)
    (h : ∀ a ∈ l, ∀ v', F' a = some v' → ∃ v, F a = some v ∧ T v v') (vs' : List γ) (hv : l.mapM F' = some vs') :
    ∃ vs, l.mapM F = some vs ∧ List.Forall₂ T vs vs' := by
  induction l generalizing vs' with
  | nil =>
    simp at hv
    subst hv
    exact ⟨[], by simp, .nil⟩
  | cons a l ih =>
    rw [List.mapM_cons] at hv
    simp only [Option.bind_eq_bind, Option.bind_eq_some_iff, Option.pure_def, Option.some.injEq] at hv
    obtain ⟨v', h1, ws', h2, rfl⟩ := hv
    obtain ⟨v, h3, h4⟩ := h a (by simp) v' h1
    obtain ⟨ws, h5, h6⟩ := ih (fun b hb => h b (by simp [hb])) ws' h2
    refine ⟨v :: ws, ?_, .cons h4 h6⟩
    rw [List.mapM_cons, h3, h5]
    rfl

theorem filterMap_rel (T : P → Q → Prop) (vs : List (Option P)) (vs' : List (Option Q)) (h : List.Forall₂ (Option.Rel T) vs vs') :
    List.Forall₂ T (vs.filterMap id) (vs'.filterMap id) := by
  induction h with
  | nil => exact .nil
  | cons h1 _ ih =>
    cases h1 with
    | some h => exact .cons h ih
    | none => exact ih

/-- two arithmetics add up corresponding numbers -/
theorem terms_rel (R : Prec P) (R' : Prec Q) (Rel : P × P → Q × Q → Prop) (T : P → Q → Prop)
    (hR : ∀ c c', Rel c c' → isZeroP R c = isZeroP R' c' ∧ T (normSqrP R c) (normSqrP R' c')) (h0 : Rel (R.zero, R.zero) (R'.zero, R'.zero))
    (n m : ℕ) (idx : List ℕ) (input : List (P × P)) (input' : List (Q × Q)) (hi : List.Forall₂ Rel input input') (off : Option ℕ) (ts' : List Q)
    (ht : measureTermsP R' n m idx input' off = some ts') :
    ∃ ts, measureTermsP R n m idx input off = some ts ∧ List.Forall₂ T ts ts' := by
  have hl := hi.length_eq
  unfold measureTermsP at ht ⊢
  simp only [Option.bind_eq_bind, Option.bind_eq_some_iff, Option.some.injEq] at ht ⊢
  obtain ⟨t, h1, vs', h2, rfl⟩ := ht
  obtain ⟨vs, h3, h4⟩ := mapM_rel (Option.Rel T) (fun bits => do
    let tmp ← scatterBits n bits ((List.range n).filter (fun i => !idx.contains i))
    let index := tmp + t
    if index < off.getD 0 then some (none : Option P)
    else
      let amp := if h : index - off.getD 0 ≥ input.length then (R.zero, R.zero) else input[index - off.getD 0]'(by omega)
      if isZeroP R amp then some none else some (some (normSqrP R amp))) _ _ (by
    intro b _ v' hv
    simp only [Option.bind_eq_some_iff] at hv
    obtain ⟨tmp, k1, k2⟩ := hv
    simp only [k1, Option.bind_eq_bind, Option.bind_some]
    split at k2
    · rename_i hlt
      rw [if_pos hlt]
      cases k2
      exact ⟨none, rfl, .none⟩
    · rename_i hlt
      rw [if_neg hlt]
      have hrel : Rel (if h : tmp + t - off.getD 0 ≥ input.length then (R.zero, R.zero) else input[tmp + t - off.getD 0]'(by omega))
          (if h : tmp + t - off.getD 0 ≥ input'.length then (R'.zero, R'.zero) else input'[tmp + t - off.getD 0]'(by omega)) := by
        by_cases h : tmp + t - off.getD 0 ≥ input.length
        · rw [dif_pos h, dif_pos (by omega)]; exact h0
        · rw [dif_neg h, dif_neg (by omega)]
          exact (List.forall₂_iff_get.mp hi).2 _ (by omega) (by omega)
      obtain ⟨z1, z2⟩ := hR _ _ hrel
      generalize (if h : tmp + t - off.getD 0 ≥ input.length then (R.zero, R.zero) else input[tmp + t - off.getD 0]'(by omega)) = c at *
      generalize (if h : tmp + t - off.getD 0 ≥ input'.length then (R'.zero, R'.zero) else input'[tmp + t - off.getD 0]'(by omega)) = c' at *
      rw [z1]
      split at k2
      · rename_i hz
        rw [if_pos hz]
        cases k2
        exact ⟨none, rfl, .none⟩
      · rename_i hz
        rw [if_neg hz]
        cases k2
        exact ⟨_, rfl, .some z2⟩) vs' h2
  exact ⟨vs.filterMap id, ⟨t, h1, vs, h3, rfl⟩, filterMap_rel T vs vs' h4⟩

theorem terms_length (R : Prec P) (n m : ℕ) (idx : List ℕ) (input : List (P × P)) (off : Option ℕ) (ts : List P)
    (ht : measureTermsP R n m idx input off = some ts) : ts.length ≤ 2 ^ n := by
  unfold measureTermsP at ht
  simp only [Option.bind_eq_bind, Option.bind_eq_some_iff, Option.some.injEq] at ht
  obtain ⟨t, h1, vs, h2, rfl⟩ := ht
  refine (List.length_filterMap_le _ _).trans ?_
  have : vs.length = (List.range (1 <<< ((List.range n).filter (fun i => !idx.contains i)).length)).length := by
    have := mapM_rel (fun (_ : Unit) _ => True) (fun _ => some ()) _ _ (fun _ _ _ _ => ⟨(), rfl, trivial⟩) vs h2
    obtain ⟨us, u1, u2⟩ := this
    have e : ∀ l : List ℕ, l.mapM (fun _ => some ()) = some (l.map fun _ => ()) := by
      intro l
      induction l with
      | nil => rfl
      | cons a l ih => rw [List.mapM_cons, ih]; rfl
    rw [e] at u1
    rw [← u2.length_eq, ← Option.some.inj u1, List.length_map]
  rw [this, List.length_range, Nat.one_shiftLeft]
  apply Nat.pow_le_pow_right (by omega)
  exact (List.length_filter_le _ _).trans (by simp)

end rel

variable {f : Format} {fl : ℝ → ℝ}

namespace Format.Arith

/-- `y` is the computed sum of `k` non-negative numbers whose exact sum is `S` -/
def SumOf (f : Format) (k : ℕ) (S : ℝ) (y : f.Fin) : Prop :=
  0 ≤ y.1 ∧ 0 ≤ S ∧ ((k = 0 ∧ y.1 = 0 ∧ S = 0) ∨ ∃ j : ℕ, k = j + 1 ∧
    |y.1 - S| ≤ ((1 + f.eps) ^ (j + 1) - 1) * S + j * ((1 + f.eps) ^ (j + 1) * f.tiny))

theorem SumOf.add (A : f.Arith fl) {ka kb : ℕ} {Sa Sb : ℝ} {y z : f.Fin} (ha : SumOf f ka Sa y) (hb : SumOf f kb Sb z)
    (hB : (1 + f.eps) ^ (ka + kb) * (Sa + Sb + (ka + kb : ℕ) * f.tiny) ≤ f.top / 2) :
    ∃ w : f.Fin, A.add (some y) (some z) = some w ∧ SumOf f (ka + kb) (Sa + Sb) w := by
  have hd := eps_pos f
  have ht := tiny_pos f
  obtain ⟨y0, a0, ha⟩ := ha
  obtain ⟨z0, b0, hb⟩ := hb
  have zer : ∀ u : f.Fin, A.round u.1 = some u := fun u => round_fix A u.1 u.2.1 u.2.2
  rcases ha with ⟨rfl, y1, rfl⟩ | ⟨i, rfl, ha⟩
  · refine ⟨z, ?_, z0, by linarith, ?_⟩
    · show A.round (y.1 + z.1) = some z
      rw [y1, zero_add, zer]
    · rw [zero_add, zero_add]; exact hb
  rcases hb with ⟨rfl, z1, rfl⟩ | ⟨j, rfl, hb⟩
  · refine ⟨y, ?_, y0, by linarith, ?_⟩
    · show A.round (y.1 + z.1) = some y
      rw [z1, add_zero, zer]
    · rw [add_zero, add_zero]; exact .inr ⟨i, rfl, ha⟩
  have g1 : (1 + f.eps) * (1 + f.eps) ^ (i + 1) ≤ (1 + f.eps) ^ (i + 1 + (j + 1)) := by
    rw [← pow_succ']
    exact pow_le_pow_right₀ (by linarith) (by omega)
  have g2 : (1 + f.eps) * (1 + f.eps) ^ (j + 1) ≤ (1 + f.eps) ^ (i + 1 + (j + 1)) := by
    rw [← pow_succ']
    exact pow_le_pow_right₀ (by linarith) (by omega)
  have p1 : 1 ≤ (1 + f.eps) ^ (i + 1) := one_le_pow₀ (by linarith)
  have p2 : 1 ≤ (1 + f.eps) ^ (j + 1) := one_le_pow₀ (by linarith)
  push_cast at hB
  have herr := fl_err A (y.1 + z.1)
  rw [abs_of_nonneg (by linarith : 0 ≤ y.1 + z.1)] at herr
  have hi0 : (0 : ℝ) ≤ i := by positivity
  have hj0 : (0 : ℝ) ≤ j := by positivity
  suffices h : (y.1 + z.1 ≤ (1 + f.eps) ^ (i + 1 + (j + 1)) * (Sa + Sb + (i + 1 + (j + 1)) * f.tiny)) ∧
      |fl (y.1 + z.1) - (Sa + Sb)| ≤ ((1 + f.eps) ^ (i + 1 + (j + 1)) - 1) * (Sa + Sb) + (i + j + 1) * ((1 + f.eps) ^ (i + 1 + (j + 1)) * f.tiny) by
    obtain ⟨w, w1, w2⟩ := add_some A y z (by rw [abs_of_nonneg (by linarith)]; exact h.1.trans hB)
    refine ⟨w, w1, by rw [w2]; exact fl_nonneg A (by linarith), by linarith, .inr ⟨i + 1 + j, by omega, ?_⟩⟩
    rw [w2]
    refine h.2.trans (le_of_eq ?_)
    push_cast
    ring
  generalize (1 + f.eps) ^ (i + 1 + (j + 1)) = G at *
  generalize (1 + f.eps) ^ (i + 1) = ga at *
  generalize (1 + f.eps) ^ (j + 1) = gb at *
  generalize f.eps = d at *
  generalize f.tiny = t at *
  generalize (i : ℝ) = i at *
  generalize (j : ℝ) = j at *
  have hy := _root_.abs_le.mp ha
  have hz := _root_.abs_le.mp hb
  have c1 : (1 + d) * ga * Sa ≤ G * Sa := mul_le_mul_of_nonneg_right g1 a0
  have c2 : (1 + d) * gb * Sb ≤ G * Sb := mul_le_mul_of_nonneg_right g2 b0
  have c3 : (1 + d) * ga * (i * t) ≤ G * (i * t) := mul_le_mul_of_nonneg_right g1 (by positivity)
  have c4 : (1 + d) * gb * (j * t) ≤ G * (j * t) := mul_le_mul_of_nonneg_right g2 (by positivity)
  have hG : 1 ≤ G := by nlinarith
  have c5 : t ≤ G * t := by nlinarith
  have hsum : |y.1 + z.1 - (Sa + Sb)| ≤ (ga - 1) * Sa + i * (ga * t) + ((gb - 1) * Sb + j * (gb * t)) := by
    have : y.1 + z.1 - (Sa + Sb) = (y.1 - Sa) + (z.1 - Sb) := by ring
    rw [this]
    exact (abs_add_le _ _).trans (add_le_add ha hb)
  have hyz : y.1 + z.1 ≤ ga * Sa + i * (ga * t) + (gb * Sb + j * (gb * t)) := by linarith [hy.2, hz.2]
  have e0 : 0 ≤ ga * Sa + i * (ga * t) + (gb * Sb + j * (gb * t)) := by linarith
  have e1 : (1 + d) * (ga * Sa + i * (ga * t) + (gb * Sb + j * (gb * t))) ≤ G * (Sa + Sb) + (i + j) * (G * t) := by nlinarith
  constructor
  · have : (ga * Sa + i * (ga * t) + (gb * Sb + j * (gb * t))) ≤ (1 + d) * (ga * Sa + i * (ga * t) + (gb * Sb + j * (gb * t))) := by nlinarith
    nlinarith
  · have tri : |fl (y.1 + z.1) - (Sa + Sb)| ≤ |fl (y.1 + z.1) - (y.1 + z.1)| + |y.1 + z.1 - (Sa + Sb)| := by
      have : fl (y.1 + z.1) - (Sa + Sb) = (fl (y.1 + z.1) - (y.1 + z.1)) + (y.1 + z.1 - (Sa + Sb)) := by ring
      rw [this]
      exact abs_add_le _ _
    have := mul_le_mul_of_nonneg_left hyz hd.le
    nlinarith

/-- computed sums, whatever the order of the additions -/
theorem sums_err (A : f.Arith fl) (l : List f.Part) (p : f.Part) (h : SumsP A.prec l p) (hl : ∀ t ∈ l, ∃ y : f.Fin, t = some y ∧ 0 ≤ y.1)
    (hb : (1 + f.eps) ^ l.length * ((l.map f.partVal).sum + l.length * f.tiny) ≤ f.top / 2) :
    ∃ y : f.Fin, p = some y ∧ SumOf f l.length (l.map f.partVal).sum y := by
  have hd := eps_pos f
  have ht := tiny_pos f
  have hS : ∀ l : List f.Part, (∀ t ∈ l, ∃ y : f.Fin, t = some y ∧ 0 ≤ y.1) → 0 ≤ (l.map f.partVal).sum := by
    intro l hl
    apply List.sum_nonneg
    intro v hv
    obtain ⟨t, ht, rfl⟩ := List.mem_map.mp hv
    obtain ⟨y, rfl, y0⟩ := hl t ht
    exact y0
  have mono : ∀ (ka k : ℕ) (Sa S : ℝ), ka ≤ k → 0 ≤ Sa → Sa ≤ S → (1 + f.eps) ^ k * (S + k * f.tiny) ≤ f.top / 2 →
      (1 + f.eps) ^ ka * (Sa + ka * f.tiny) ≤ f.top / 2 := by
    intro ka k Sa S hk h0 hS' hb
    refine le_trans ?_ hb
    have : (ka : ℝ) ≤ k := by exact_mod_cast hk
    apply mul_le_mul (pow_le_pow_right₀ (by linarith) hk) _ (by positivity) (by positivity)
    nlinarith
  induction h with
  | nil => exact ⟨_, round_zero A, le_rfl, le_rfl, .inl ⟨rfl, rfl, rfl⟩⟩
  | snoc l s x _ ih =>
    obtain ⟨z, rfl, z0⟩ := hl x (by simp)
    have hzv : f.partVal (some z) = z.1 := rfl
    have hl' : ∀ t ∈ l, ∃ y : f.Fin, t = some y ∧ 0 ≤ y.1 := fun t ht => hl t (by simp [ht])
    have h0 := hS l hl'
    simp only [List.map_append, List.map_cons, List.map_nil, List.sum_append, List.sum_cons, List.sum_nil, add_zero, List.length_append,
      List.length_cons, List.length_nil, hzv, zero_add] at hb ⊢
    obtain ⟨y, rfl, hy⟩ := ih hl' (mono _ _ _ _ (by omega) h0 (by linarith) hb)
    refine hy.add A (kb := 1) (Sb := z.1) (z := z) ⟨z0, z0, .inr ⟨0, rfl, ?_⟩⟩ hb
    simp
    positivity
  | join a b s t _ _ iha ihb =>
    have ha : ∀ t ∈ a, ∃ y : f.Fin, t = some y ∧ 0 ≤ y.1 := fun t ht => hl t (by simp [ht])
    have hb' : ∀ t ∈ b, ∃ y : f.Fin, t = some y ∧ 0 ≤ y.1 := fun t ht => hl t (by simp [ht])
    have a0 := hS a ha
    have b0 := hS b hb'
    simp only [List.map_append, List.sum_append, List.length_append] at hb ⊢
    obtain ⟨y, rfl, hy⟩ := iha ha (mono _ _ _ _ (by omega) a0 (by linarith) hb)
    obtain ⟨z, rfl, hz⟩ := ihb hb' (mono _ _ _ _ (by omega) b0 (by linarith) hb)
    have e : A.prec.add A.prec.zero (some y) = some y := by
      show A.add (A.round 0) (some y) = some y
      rw [round_zero]
      show A.round (0 + y.1) = some y
      rw [zero_add, round_fix A y.1 y.2.1 y.2.2]
      rfl
    rw [e]
    exact hy.add A hz hb

/-- corresponding numbers: a finite computed number and its value -/
def Corr (A : f.Arith fl) (c : f.Part × f.Part) (c' : ℝ × ℝ) : Prop := A.fin c ∧ ‖A.val c‖ ≤ 2 ∧ c' = reIm (A.val c)

/-- corresponding squares -/
def CorrSq (f : Format) (t : f.Part) (x : ℝ) : Prop :=
  0 ≤ x ∧ ∃ y : f.Fin, t = some y ∧ 0 ≤ y.1 ∧ |y.1 - x| ≤ (2 * f.eps + f.eps ^ 2) * x + 4 * f.tiny

theorem corr_sq (A : f.Arith fl) (hf : 10 ≤ f.p) (c : f.Part × f.Part) (c' : ℝ × ℝ) (h : Corr A c c') :
    isZeroP A.prec c = isZeroP exactPrec c' ∧ CorrSq f (normSqrP A.prec c) (normSqrP exactPrec c') := by
  obtain ⟨h1, h2, rfl⟩ := h
  constructor
  · obtain ⟨x, y, rfl⟩ := fin_cases A c h1
    have hz : A.prec.zero = some ⟨0, fits_zero f, by rw [abs_zero]; linarith [top_ge A]⟩ := round_zero A
    show (A.prec.beq (some x) A.prec.zero && A.prec.beq (some y) A.prec.zero) = (decide (x.1 = 0) && decide (y.1 = 0))
    rw [hz]
    show (@decide (x.1 = 0) _ && @decide (y.1 = 0) _) = _
    congr 1
  · obtain ⟨y, y1, y2, y3⟩ := normSqr_some A hf c h1 h2
    rw [normSqr_exact, Complex.normSq_eq_norm_sq]
    exact ⟨by positivity, y, y1, y2, y3⟩

theorem corrSq_sum (ts : List f.Part) (xs : List ℝ) (h : List.Forall₂ (CorrSq f) ts xs) :
    (∀ t ∈ ts, ∃ y : f.Fin, t = some y ∧ 0 ≤ y.1) ∧ 0 ≤ xs.sum ∧
    |(ts.map f.partVal).sum - xs.sum| ≤ (2 * f.eps + f.eps ^ 2) * xs.sum + ts.length * (4 * f.tiny) := by
  induction h with
  | nil => simp
  | @cons t x ts xs h1 _ ih =>
    obtain ⟨x0, y, rfl, y0, y1⟩ := h1
    obtain ⟨i1, i2, i3⟩ := ih
    refine ⟨?_, ?_, ?_⟩
    · intro t ht
      rcases List.mem_cons.mp ht with rfl | ht
      · exact ⟨y, rfl, y0⟩
      · exact i1 t ht
    · rw [List.sum_cons]; linarith
    · simp only [List.map_cons, List.sum_cons, List.length_cons, Nat.cast_add, Nat.cast_one]
      rw [show f.partVal (some y) = y.1 from rfl]
      have : y.1 + (ts.map f.partVal).sum - (x + xs.sum) = (y.1 - x) + ((ts.map f.partVal).sum - xs.sum) := by ring
      rw [this]
      refine (abs_add_le _ _).trans ?_
      linarith

/-- the probability of an outcome, computed in any order -/
theorem prob_err (A : f.Arith fl) (hf : 10 ≤ f.p) (n m : ℕ) (idx : List ℕ) (hn : idx.Nodup) (hidx : ∀ i ∈ idx, i < n) (v : List A.Num)
    (hv : ∀ c ∈ v, A.fin c ∧ ‖A.val c‖ ≤ 2) (P : ℝ) (hP : P = bornProb n idx m (ampAt (v.map A.val) 0)) (hP4 : P ≤ 4)
    (hN : 2 ^ n * f.eps ≤ 1 / 64) :
    ∃ ts, measureTermsP A.prec n m idx v none = some ts ∧ ∀ p, SumsP A.prec ts p →
      ∃ y : f.Fin, p = some y ∧ 0 ≤ y.1 ∧ |y.1 - P| ≤ 5 * (2 ^ n * f.eps) * P + 10 * (2 ^ n * f.tiny) := by
  have he := measureTerms_exact n m idx (v.map A.val) none
  rw [measureProb_eq n m idx hn hidx, Option.getD_none, ← hP, Option.map_eq_some_iff] at he
  obtain ⟨xs, x1, x2⟩ := he
  have hrel : List.Forall₂ (Corr A) (v : List (f.Part × f.Part)) ((v.map A.val).map reIm) := by
    have : ∀ l : List A.Num, (∀ c ∈ l, A.fin c ∧ ‖A.val c‖ ≤ 2) → List.Forall₂ (Corr A) l ((l.map A.val).map reIm) := by
      intro l hl
      induction l with
      | nil => exact .nil
      | cons c l ih => exact .cons ⟨(hl c (by simp)).1, (hl c (by simp)).2, rfl⟩ (ih fun c' h' => hl c' (by simp [h']))
    exact this v hv
  have h0 : Corr A (A.prec.zero, A.prec.zero) (exactPrec.zero, exactPrec.zero) := by
    have hz : A.prec.zero = some ⟨0, fits_zero f, by rw [abs_zero]; linarith [top_ge A]⟩ := round_zero A
    rw [hz]
    have e : A.val (some ⟨0, fits_zero f, by rw [abs_zero]; linarith [top_ge A]⟩, some ⟨0, fits_zero f, by rw [abs_zero]; linarith [top_ge A]⟩) = 0 := rfl
    refine ⟨⟨rfl, rfl⟩, ?_, ?_⟩
    · show ‖A.val (some ⟨0, fits_zero f, by rw [abs_zero]; linarith [top_ge A]⟩, some ⟨0, fits_zero f, by rw [abs_zero]; linarith [top_ge A]⟩)‖ ≤ 2
      rw [e]; simp
    · rfl
  obtain ⟨ts, t1, t2⟩ := terms_rel A.prec exactPrec (Corr A) (CorrSq f) (corr_sq A hf) h0 n m idx v _ hrel none xs x1
  refine ⟨ts, t1, fun p hp => ?_⟩
  have hlen := terms_length A.prec n m idx v none ts t1
  obtain ⟨s1, s2, s3⟩ := corrSq_sum ts xs t2
  rw [x2] at s2 s3
  have hd := eps_pos f
  have hd1 := eps_le f hf
  have ht := tiny_pos f
  have ht1 := tiny_le A
  have htop := (top_big A hf).1
  have hk : (ts.length : ℝ) ≤ 2 ^ n := by exact_mod_cast hlen
  have hk0 : (0 : ℝ) ≤ ts.length := by positivity
  have hN1 : (1 : ℝ) ≤ 2 ^ n := one_le_pow₀ (by norm_num)
  have hkd : ts.length * f.eps ≤ 2 ^ n * f.eps := mul_le_mul_of_nonneg_right hk hd.le
  have hkt : ts.length * f.tiny ≤ 2 ^ n * f.tiny := mul_le_mul_of_nonneg_right hk ht.le
  have hpow := Verif.Props.pow_le_linear f.eps hd.le ts.length (by linarith)
  have hpow1 : 1 ≤ (1 + f.eps) ^ ts.length := one_le_pow₀ (by linarith)
  have hdN : f.eps ≤ 2 ^ n * f.eps := by nlinarith
  have hNt : 2 ^ n * f.tiny ≤ 1 / 128 := by nlinarith
  have hsq : f.eps ^ 2 ≤ 1 / 1024 * f.eps := by nlinarith
  have hS := _root_.abs_le.mp s3
  have hSP : (2 * f.eps + f.eps ^ 2) * P ≤ 2001 / 1000 * (2 ^ n * f.eps * P) := by
    have : 2 * f.eps + f.eps ^ 2 ≤ 2001 / 1000 * (2 ^ n * f.eps) := by linarith
    nlinarith
  have hNP : 2 ^ n * f.eps * P ≤ 1 / 64 * P := mul_le_mul_of_nonneg_right hN s2
  obtain ⟨y, rfl, y0, q0, hy⟩ := sums_err A ts p hp s1 (by
    refine (mul_le_mul (hpow.trans (by linarith : _ ≤ (2 : ℝ))) (by linarith : _ ≤ (10 : ℝ)) ?_ (by norm_num)).trans (by linarith)
    have := List.sum_nonneg (l := ts.map f.partVal) (by
      intro u hu
      obtain ⟨t, ht, rfl⟩ := List.mem_map.mp hu
      obtain ⟨y, rfl, y0⟩ := s1 t ht
      exact y0)
    positivity)
  refine ⟨y, rfl, y0, ?_⟩
  rcases hy with ⟨k0, yz, S0⟩ | ⟨j, j1, j2⟩
  · rw [S0, k0, zero_sub, abs_neg, abs_of_nonneg s2, Nat.cast_zero, zero_mul, add_zero] at s3
    have : P = 0 := by nlinarith
    rw [yz, this]
    simp
    positivity
  · rw [← j1] at j2
    have hj : (j : ℝ) ≤ 2 ^ n := by
      refine le_trans ?_ hk
      rw [j1]; push_cast; linarith
    have hj0 : (0 : ℝ) ≤ j := by positivity
    have tri : |y.1 - P| ≤ |y.1 - (ts.map f.partVal).sum| + |(ts.map f.partVal).sum - P| := abs_sub_le _ _ _
    generalize (ts.map f.partVal).sum = S at *
    generalize (1 + f.eps) ^ ts.length = g at *
    have q1 : (2 * f.eps + f.eps ^ 2) * P ≤ 1 / 500 * P := mul_le_mul_of_nonneg_right (by linarith) s2
    have q2 : S ≤ 501 / 500 * P + 4 * (2 ^ n * f.tiny) := by linarith [hS.2]
    have q3 : (g - 1) * S ≤ 2 * (2 ^ n * f.eps) * (501 / 500 * P + 4 * (2 ^ n * f.tiny)) := mul_le_mul (by linarith) q2 q0 (by positivity)
    have q4 : (j : ℝ) * (g * f.tiny) ≤ 2 ^ n * (33 / 32 * f.tiny) := by
      apply mul_le_mul hj _ (by positivity) (by positivity)
      exact mul_le_mul_of_nonneg_right (by linarith) ht.le
    have q5 : (2 ^ n * f.eps) * (2 ^ n * f.tiny) ≤ 1 / 64 * (2 ^ n * f.tiny) := mul_le_mul_of_nonneg_right hN (by positivity)
    have q6 : 0 ≤ 2 ^ n * f.eps * P := by positivity
    have q7 : 0 ≤ 2 ^ n * f.tiny := by positivity
    have q8 : 2 * (2 ^ n * f.eps) * (501 / 500 * P + 4 * (2 ^ n * f.tiny)) =
        501 / 250 * (2 ^ n * f.eps * P) + 8 * ((2 ^ n * f.eps) * (2 ^ n * f.tiny)) := by ring
    have q9 : (2 : ℝ) ^ n * (33 / 32 * f.tiny) = 33 / 32 * (2 ^ n * f.tiny) := by ring
    have q10 : 5 * (2 ^ n * f.eps) * P = 5 * (2 ^ n * f.eps * P) := by ring
    have q11 : ts.length * (4 * f.tiny) = 4 * (ts.length * f.tiny) := by ring
    rw [q8] at q3
    rw [q9] at q4
    rw [q10]
    rw [q11] at s3
    linarith

end Format.Arith
end Verif
