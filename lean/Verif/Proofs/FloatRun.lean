import Verif.Proofs.FloatErr
import Verif.Proofs.Ops2

namespace Verif
open MatrixOp Finset

/-! ### Euclidean length -/

theorem nrm_eq (n : ℕ) (f : ℕ → ℂ) : nrm n f = ‖(WithLp.toLp 2 (fun i : Fin (2 ^ n) => f i) : EuclideanSpace ℂ (Fin (2 ^ n)))‖ := by
  rw [EuclideanSpace.norm_eq, nrm, Finset.sum_range]

theorem nrm_add_le (n : ℕ) (f g : ℕ → ℂ) : nrm n (fun r => f r + g r) ≤ nrm n f + nrm n g := by
  rw [nrm_eq, nrm_eq, nrm_eq]
  exact norm_add_le (WithLp.toLp 2 (fun i : Fin (2 ^ n) => f i) : EuclideanSpace ℂ (Fin (2 ^ n))) (WithLp.toLp 2 fun i => g i)

theorem nrm_nonneg (n : ℕ) (f : ℕ → ℂ) : 0 ≤ nrm n f := Real.sqrt_nonneg _

theorem nrm_sq (n : ℕ) (f : ℕ → ℂ) : nrm n f ^ 2 = ∑ r ∈ range (2 ^ n), ‖f r‖ ^ 2 :=
  Real.sq_sqrt (sum_nonneg fun _ _ => sq_nonneg _)

theorem nrm_congr (n : ℕ) (f g : ℕ → ℂ) (h : ∀ r, r < 2 ^ n → f r = g r) : nrm n f = nrm n g := by
  unfold nrm
  rw [sum_congr rfl fun r hr => by rw [h r (mem_range.mp hr)]]

theorem nrm_mulVec (n : ℕ) (M : ℕ → ℕ → ℂ) (h : IsUnitary n M) (f : ℕ → ℂ) : nrm n (mulVec n M f) = nrm n f := by
  unfold nrm
  congr 1
  have := normSq_sum_unitary (2 ^ n) M h f
  simp only [Complex.normSq_eq_norm_sq] at this
  exact this

theorem mulVec_sub (n : ℕ) (M : ℕ → ℕ → ℂ) (f g : ℕ → ℂ) (r : ℕ) :
    mulVec n M (fun c => f c - g c) r = mulVec n M f r - mulVec n M g r := by
  simp only [mulVec, mul_sub, sum_sub_distrib]

theorem unitary_col (n : ℕ) (M : ℕ → ℕ → ℂ) (h : IsUnitary n M) (c : ℕ) (hc : c < 2 ^ n) :
    ∑ r ∈ range (2 ^ n), ‖M r c‖ ^ 2 = 1 := by
  have h1 := h c c hc hc
  rw [if_pos rfl] at h1
  apply Complex.ofReal_injective
  rw [Complex.ofReal_sum, Complex.ofReal_one, ← h1]
  apply sum_congr rfl
  intro r _
  rw [← Complex.normSq_eq_norm_sq, Complex.normSq_eq_conj_mul_self]; rfl

section
variable {F : Type} [Zero F] [One F] [Add F] [Mul F] [DecidableEq F] {val : F → ℂ} {u : ℝ}

theorem zip_map_sum {α β γ : Type} [AddMonoid γ] {P : α → β → Prop} {l : List α} {l' : List β} (h : List.Forall₂ P l l') (f : β → γ) :
    ((l.zip l').map fun p => f p.2).sum = (l'.map f).sum := by
  induction h with
  | nil => rfl
  | cons _ _ ih => simp [ih]

theorem zip_map_left {α β γ : Type} {P : α → β → Prop} {l : List α} {l' : List β} (h : List.Forall₂ P l l') (f : α → γ) :
    (l.zip l').map (fun p => f p.1) = l.map f := by
  induction h with
  | nil => rfl
  | cons _ _ ih => simp [ih]

theorem forall₂_zip {α β : Type} {P : α → β → Prop} {l : List α} {l' : List β} (h : List.Forall₂ P l l') :
    ∀ p ∈ l.zip l', P p.1 p.2 := by
  induction h with
  | nil => simp
  | cons h1 _ ih =>
    intro p hp
    rw [List.zip_cons_cons, List.mem_cons] at hp
    rcases hp with rfl | hp
    · exact h1
    · exact ih p hp

open Classical in
/-- the error of one computed row -/
theorem rowTotal_err (R : Rounds val u) (n : ℕ) {op : MatrixOp F} {U : MatrixOp ℂ} (h : Stores val u op U) (hU : U.WF)
    (hn : U.indices.Nodup) (hidx : ∀ i ∈ U.indices, i < n) (input : List F) (hi : input.length = 2 ^ n) (T : ℕ) (hT : U.width ≤ T + 1)
    (r : ℕ) (hr : r < 2 ^ n) :
    ‖val (rowTotal n op input r) - mulVec n (embed n U.indices (opMat U)) (vals val input) r‖ ≤
      ((1 + u) ^ (T + 2) - 1) *
        ((rowItems U (f2s n U.indices r)).map fun e => ‖e.2‖ * ‖vals val input (s2f n U.indices e.1 r)‖).sum := by
  have hu := R.nonneg
  have hsame := rowItems_same R h (f2s n U.indices r)
  have hval : ∀ c, val ((input[c]?).getD 0) = vals val input c := by
    intro c
    unfold vals
    cases input[c]? with
    | none => simp [R.val_zero]
    | some x => rfl
  have key := Term.total R (g := (1 + u) ^ 2) (one_le_pow₀ (by linarith))
    ((rowItems op (f2s n U.indices r)).zip (rowItems U (f2s n U.indices r)))
    (fun p => p.1.2 * (input[s2f n U.indices p.1.1 r]?).getD 0)
    (fun p => p.2.2 * vals val input (s2f n U.indices p.2.1 r))
    (fun p => ‖p.2.2‖ * ‖vals val input (s2f n U.indices p.2.1 r)‖)
    (by
      intro p hp
      obtain ⟨h1, h2⟩ := forall₂_zip hsame p hp
      have := Term.mul R (x := (input[s2f n U.indices p.1.1 r]?).getD 0) h2
      rw [hval, h1] at this
      rw [h1]
      exact this) T
    (by
      rw [List.length_zip]
      exact (min_le_right _ _).trans ((rowItems_width U _).trans hT))
  rw [zip_map_sum hsame (fun e => e.2 * vals val input (s2f n U.indices e.1 r)),
    zip_map_sum hsame (fun e => ‖e.2‖ * ‖vals val input (s2f n U.indices e.1 r)‖),
    zip_map_left hsame (fun e => e.2 * (input[s2f n U.indices e.1 r]?).getD 0)] at key
  obtain ⟨l, hl, hrows⟩ := items_spec U hU (f2s n U.indices r) (f2s_lt _ _ _)
  rw [items_rows U hU _ (f2s_lt _ _ _)] at hl
  injection hl with hl
  subst hl
  rw [hrows.sum (fun c => vals val input (s2f n U.indices c r)), embed_sum n U.indices hn hidx (opMat U) (vals val input) r hr] at key
  have := key.err
  rw [show (1 + u) ^ 2 * (1 + u) ^ T = (1 + u) ^ (T + 2) by ring] at this
  rw [rowTotal, h.indices]
  exact this

open Classical in
theorem step_err (R : Rounds val u) (n : ℕ) {op : MatrixOp F} {U : MatrixOp ℂ} (h : Stores val u op U) (hU : U.WF) (hd : U.Distinct)
    (hn : U.indices.Nodup) (hidx : ∀ i ∈ U.indices, i < n) (hu : IsUnitary U.indices.length (opMat U)) (input : List F)
    (hi : input.length = 2 ^ n) (T : ℕ) (hT : U.width ≤ T + 1) :
    nrm n (fun r => val (rowTotal n op input r) - mulVec n (embed n U.indices (opMat U)) (vals val input) r) ≤
      ((1 + u) ^ (T + 2) - 1) * Real.sqrt (T + 1) * nrm n (vals val input) := by
  have h0 : 0 ≤ (1 + u) ^ (T + 2) - 1 := by
    have : (1 : ℝ) ≤ (1 + u) ^ (T + 2) := one_le_pow₀ (by linarith [R.nonneg])
    linarith
  have hE := embed_unitary n U.indices hn hidx (opMat U) hu
  have rows : ∀ r ∈ range (2 ^ n),
      ‖val (rowTotal n op input r) - mulVec n (embed n U.indices (opMat U)) (vals val input) r‖ ^ 2 ≤
        ((1 + u) ^ (T + 2) - 1) ^ 2 * ((T + 1) *
          ∑ c ∈ range (2 ^ n), ‖embed n U.indices (opMat U) r c‖ ^ 2 * ‖vals val input c‖ ^ 2) := by
    intro r hr
    rw [mem_range] at hr
    refine (pow_le_pow_left₀ (norm_nonneg _) (rowTotal_err R n h hU hn hidx input hi T hT r hr) 2).trans ?_
    rw [mul_pow]
    refine mul_le_mul_of_nonneg_left ?_ (sq_nonneg _)
    refine (list_sq_le _ _ (T + 1) ((rowItems_width U _).trans hT)).trans (le_of_eq ?_)
    push_cast
    congr 1
    obtain ⟨l, hl, hrows⟩ := items_spec U hU (f2s n U.indices r) (f2s_lt _ _ _)
    rw [items_rows U hU _ (f2s_lt _ _ _)] at hl
    injection hl with hl
    subst hl
    have := hrows.sq_sum (rowItems_nodup U hd _) (fun c => ‖vals val input (s2f n U.indices c r)‖ ^ 2)
    simp only [mul_pow]
    rw [this, embed_sum n U.indices hn hidx (fun a b => ‖opMat U a b‖ ^ 2) (fun c => ‖vals val input c‖ ^ 2) r hr]
    apply sum_congr rfl
    intro c _
    congr 1
    unfold embed
    split <;> simp
  have hsum : nrm n (fun r => val (rowTotal n op input r) - mulVec n (embed n U.indices (opMat U)) (vals val input) r) ^ 2 ≤
      (((1 + u) ^ (T + 2) - 1) * Real.sqrt (T + 1) * nrm n (vals val input)) ^ 2 := by
    rw [nrm_sq, mul_pow, mul_pow, Real.sq_sqrt (by positivity), nrm_sq]
    refine (sum_le_sum rows).trans (le_of_eq ?_)
    rw [← mul_sum, ← mul_sum, sum_comm, mul_assoc]
    congr 2
    apply sum_congr rfl
    intro c hc
    rw [← sum_mul, unitary_col n _ hE c (mem_range.mp hc), one_mul]
  exact le_of_sq_le_sq hsum (mul_nonneg (mul_nonneg h0 (Real.sqrt_nonneg _)) (nrm_nonneg _ _))

end
end Verif
