import Verif.Proofs.Freq

/-!
# Property C121: measured frequencies in floating point arithmetic

`soft_measure` (measurement_ops.rs L153-176) draws one of `2 ^ 53` evenly spaced numbers (`rand::random::<f64>()`; converted to `f32` they are rounded). Over all
of them, the share of the draws with a given outcome is the Born probability up to a small error, although single draws can give a wrong outcome (C88).
-/

namespace Verif.Props
open Verif MatrixOp Format.Arith Finset Classical

variable {f : Format} {fl : ℝ → ℝ}

/-- C121, one measurement of a state within `ε` of the exact state `φ`. The draws are `N` finite numbers that differ by at most `τ` from `0, 1/N, 2/N, …`. Whatever
the order of the additions with each draw, the number of draws with the outcome `m` is `N` times the Born probability of `m` in `φ`, up to an error of
`(2^n + 1)·(2·(κ + τ)·N + 1) + 2^n`. -/
theorem C121_measure (A : f.Arith fl) (hf : 10 ≤ f.p) (he : f.emin + 2 * f.p + 4 ≤ 0) (n : ℕ) (hN : 2 ^ n * f.eps ≤ 1 / 64) (idx : List ℕ)
    (hn : idx.Nodup) (hidx : ∀ i ∈ idx, i < n) (v arena : List A.Num) (hv : v.length = 2 ^ n) (ha : arena.length = 2 ^ n) (hfin : ∀ c ∈ v, A.fin c)
    (φ : ℕ → ℂ) (hφ : nrm n φ = 1) (ε : ℝ) (hε : ε ≤ 1) (hvφ : nrm n (fun r => vals A.val v r - φ r) ≤ ε) (N : ℕ) (hN0 : 0 < N) (τ : ℝ)
    (d : ℕ → f.Fin) (hd : ∀ j, j < N → |(d j).1 - (j : ℝ) / N| ≤ τ) (res : ℕ → ℕ)
    (hres : ∀ j, j < N → ∃ p, ∃ out : List A.Num, MeasureP A.prec n idx v arena (some (d j)) (res j) p out) (m : ℕ) (hm : m < 2 ^ idx.length) :
    |(((range N).filter fun j => res j = m).card : ℝ) - N * bornProb n idx m φ| ≤
      (2 ^ n + 1) * (2 * (ε * (2 + ε) + 20 * (2 ^ n * f.eps) + τ) * N + 1) + 2 ^ n := by
  have hN' : (0 : ℝ) < N := by exact_mod_cast hN0
  have hε0 : 0 ≤ ε := (nrm_nonneg _ _).trans hvφ
  have hτ : 0 ≤ τ := (abs_nonneg _).trans (hd 0 hN0)
  have heps := eps_pos f
  have hκ : 0 ≤ ε * (2 + ε) + 20 * (2 ^ n * f.eps) := by positivity
  generalize hK : ε * (2 + ε) + 20 * (2 ^ n * f.eps) = κ at *
  have h1 : cumul φ (2 ^ n) = 1 := by rw [cumul_full, hφ, one_pow]
  have hc := card_close n φ N hN0 (κ + τ) (by linarith) (fun j => res j = m)
    (fun j => ∃ x, x < 2 ^ n ∧ Spells n idx m x ∧ cumul φ x ≤ (j : ℝ) / N ∧ (j : ℝ) / N < cumul φ (x + 1)) (by
      intro j hj hfar
      have hj0 : (0 : ℝ) ≤ (j : ℝ) / N := by positivity
      have hj1 : (j : ℝ) / N < 1 := by rw [div_lt_one hN']; exact_mod_cast hj
      obtain ⟨x, x1, x2, x3⟩ := exists_slot n φ h1 _ hj0 hj1
      have hdj := abs_le.mp (hd j hj)
      have f0 := hfar 0 (by omega)
      have f1 := hfar (2 ^ n) le_rfl
      have fx := hfar x x1.le
      have fy := hfar (x + 1) x1
      rw [cumul_zero, sub_zero, abs_of_nonneg hj0] at f0
      rw [h1, abs_of_neg (by linarith)] at f1
      rw [abs_of_nonneg (by linarith)] at fx
      rw [abs_of_neg (by linarith)] at fy
      obtain ⟨-, -, k⟩ := measure_err A hf he n hN idx hn hidx v arena hv ha hfin φ hφ ε hε hvφ (d j) (by linarith) (by linarith) (by
        intro k _ k2
        rw [hK]
        have := hfar k k2
        rw [lt_abs] at this ⊢
        rcases this with h | h
        · left; linarith
        · right; linarith) x x1 (by linarith) (by linarith)
      obtain ⟨p, out, hr⟩ := hres j hj
      rw [(k _ p out hr).1]
      constructor
      · intro h
        exact ⟨x, x1, (spells_iff n idx m x hm).mpr h.symm, x2, x3⟩
      · rintro ⟨y, y1, y2, y3⟩
        obtain rfl := slot_unique φ _ x y ⟨x2, x3⟩ y3
        exact ((spells_iff n idx m x hm).mp y2).symm)
  have hb := card_outcome n idx m φ h1 N hN0
  exact (abs_sub_le _ _ _).trans (add_le_add hc hb)

/-- C121, a circuit of gates and a measurement of the qubits `idx` at its end, for every initial value. With `E = (cost of the circuit)·2^-p` at most one
(the cost is 64 for each gate, `16·4^k` for a unitary user matrix on `k` qubits), every draw has a run without a panic. For `N` draws near `0, 1/N, 2/N, …` and any run with each of them, the share of the runs that report the outcome `m`
is the Born probability of `m` in the exact state, up to `(2^n + 1)·(2·(E(2+E) + 20·2^(n-p) + τ) + 1/N) + 2^n/N`. -/
theorem C121_frequency (A : f.Arith fl) (hf : 10 ≤ f.p) (he : f.emin + 2 * f.p + 4 ≤ 0) (b : LocalBuilder) (hN : 2 ^ b.n * f.eps ≤ 1 / 64)
    (it : List (Reg × ℕ)) (h : ∀ p ∈ it, ∀ q ∈ p.1, q < b.n) (hp : ∀ e ∈ b.pipeline, SegU b.n e)
    (els : List (ElemP A.Num)) (hels : List.Forall₂ (ElemAs A) els b.pipeline) (idx : List ℕ) (hn : idx.Nodup) (hidx : ∀ i ∈ idx, i < b.n)
    (hE : (circuitCost b.pipeline : ℝ) * f.eps ≤ 1) :
    ∃ i v, initialIndex b.n it = some i ∧ (∀ rnds, b.calculateStateWithInit it rnds = some (v, [])) ∧
      (∀ r : f.Fin, ∃ t, RunsP A.prec (fun c : A.Num => c) (fun c => c) b.n (fun _ => some r) (els ++ [.measurement idx])
        ⟨(List.replicate (2 ^ b.n) 0).set i 1, List.replicate (2 ^ b.n) 0, []⟩ t) ∧
      ∀ (N : ℕ) (_ : 0 < N) (τ : ℝ) (d : ℕ → f.Fin) (_ : ∀ j, j < N → |(d j).1 - (j : ℝ) / N| ≤ τ) (run : ℕ → StateP A.Num f.Part)
        (_ : ∀ j, j < N → RunsP A.prec (fun c : A.Num => c) (fun c => c) b.n (fun _ => some (d j)) (els ++ [.measurement idx])
          ⟨(List.replicate (2 ^ b.n) 0).set i 1, List.replicate (2 ^ b.n) 0, []⟩ (run j)) (m : ℕ) (_ : m < 2 ^ idx.length),
        |(((range N).filter fun j => ∃ p, (run j).measurements = [(m, p)]).card : ℝ) / N - bornProb b.n idx m (vals id v)| ≤
          (2 ^ b.n + 1) * (2 * ((circuitCost b.pipeline : ℝ) * f.eps * (2 + (circuitCost b.pipeline : ℝ) * f.eps) + 20 * (2 ^ b.n * f.eps) + τ) + 1 / N) +
            2 ^ b.n / N := by
  obtain ⟨i, i1, i2, -⟩ := initialIndex_eq b.n it h
  have R := A.limits (by omega)
  have hl : ∀ {K : Type} [Zero K] [One K], ((List.replicate (2 ^ b.n) (0 : K)).set i 1).length = 2 ^ b.n := by simp
  have e0 : nrm b.n (vals id ((List.replicate (2 ^ b.n) (0 : ℂ)).set i 1)) = 1 := by
    unfold nrm
    rw [sum_congr rfl fun r hr => by rw [vals_initial id rfl rfl b.n i r (mem_range.mp hr)]]
    have : ∀ r, ‖(if r = i then (1 : ℂ) else 0)‖ ^ 2 = if r = i then 1 else 0 := by
      intro r; split <;> simp
    rw [sum_congr rfl fun r _ => this r, sum_ite_eq', if_pos (mem_range.mpr i2), Real.sqrt_one]
  have hfin : ∀ a ∈ (List.replicate (2 ^ b.n) (0 : A.Num)).set i 1, A.fin a := by
    intro a ha
    rcases List.mem_or_eq_of_mem_set ha with ha | rfl
    · rw [List.mem_replicate] at ha
      rw [ha.2]; exact R.fin_zero
    · exact R.fin_one
  obtain ⟨s', k1, k2, k3, k4, k5, t', k6, k7, k8, k9, k10, k11⟩ := gates_run A hf he b.n hN b.pipeline hp els hels
    ⟨(List.replicate (2 ^ b.n) 0).set i 1, List.replicate (2 ^ b.n) 0, []⟩ hl (by simp) e0
    ⟨(List.replicate (2 ^ b.n) 0).set i 1, List.replicate (2 ^ b.n) 0, []⟩ hl (by simp) hfin 0 (by
      rw [nrm_congr b.n _ (fun _ => 0) (fun r hr => by
        show vals A.val ((List.replicate (2 ^ b.n) (0 : A.Num)).set i 1) r - vals id ((List.replicate (2 ^ b.n) (0 : ℂ)).set i 1) r = 0
        rw [vals_initial id rfl rfl b.n i r hr, vals_initial A.val R.val_zero R.val_one b.n i r hr, sub_self])]
      simp [nrm]) (by linarith)
  rw [zero_add] at k10
  have hrun : ∀ (rnds : ℕ → f.Part) (t : StateP A.Num f.Part), RunsP A.prec (fun c : A.Num => c) (fun c => c) b.n rnds (els ++ [.measurement idx])
      ⟨(List.replicate (2 ^ b.n) 0).set i 1, List.replicate (2 ^ b.n) 0, []⟩ t ↔
      ∃ m p, ∃ out : List A.Num, MeasureP A.prec b.n idx t'.state t'.arena (rnds 0) m p out ∧ t = ⟨out, t'.state, [(m, p)]⟩ := by
    intro rnds t
    rw [k11, runs_measure, k8]
    constructor
    · rintro ⟨m, p, out, h1, h2⟩
      cases h2
      exact ⟨m, p, out, h1, rfl⟩
    · rintro ⟨m, p, out, h1, rfl⟩
      exact ⟨m, p, out, h1, .nil _⟩
  refine ⟨i, s'.state, i1, ?_, ?_, ?_⟩
  · intro rnds
    unfold LocalBuilder.calculateStateWithInit
    simp only [Nat.one_shiftLeft, i1, Option.bind_eq_bind, Option.bind_some, List.length_replicate]
    rw [if_pos i2, k1 rnds]
    show some (s'.state, s'.measurements) = _
    rw [k4]
  · intro r
    obtain ⟨⟨m, p, out, k⟩, -⟩ := C88_total A.prec b.n idx hn hidx t'.state t'.arena k6 k7 (some r)
    exact ⟨_, (hrun _ _).mpr ⟨m, p, out, k, rfl⟩⟩
  · intro N hN0 τ d hd run hruns m hm
    have hN' : (0 : ℝ) < N := by exact_mod_cast hN0
    have key := C121_measure A hf he b.n hN idx hn hidx t'.state t'.arena k6 k7 k9 (vals id s'.state) k5 _ hE k10 N hN0 τ d hd
      (fun j => ((run j).measurements.map Prod.fst).headD 0) (by
        intro j hj
        obtain ⟨m', p, out, r1, r2⟩ := (hrun _ _).mp (hruns j hj)
        refine ⟨p, out, ?_⟩
        rw [r2]
        exact r1) m hm
    have e : ((range N).filter fun j => ∃ p, (run j).measurements = [(m, p)]) =
        (range N).filter fun j => ((run j).measurements.map Prod.fst).headD 0 = m := by
      refine filter_congr fun j hj => ?_
      obtain ⟨m', p, out, r1, r2⟩ := (hrun _ _).mp (hruns j (mem_range.mp hj))
      rw [r2]
      constructor
      · rintro ⟨p', hp'⟩
        simp only [List.cons.injEq, Prod.mk.injEq, and_true] at hp'
        exact hp'.1
      · intro h
        have h : m' = m := h
        exact ⟨p, by rw [h]⟩
    rw [e]
    have e2 : ((((range N).filter fun j => ((run j).measurements.map Prod.fst).headD 0 = m).card : ℝ) / N - bornProb b.n idx m (vals id s'.state)) =
        ((((range N).filter fun j => ((run j).measurements.map Prod.fst).headD 0 = m).card : ℝ) - N * bornProb b.n idx m (vals id s'.state)) / N := by
      field_simp
    rw [e2, abs_div, abs_of_pos hN', div_le_iff₀ hN']
    refine key.trans (le_of_eq ?_)
    field_simp

/-- C121 in numbers: in `f64`, with the `2 ^ 53` draws of `rand::random::<f64>()`, at most 10 qubits and a circuit of at most 1000 gates, or
with user matrices of the same cost, no frequency is off by more than `2^-24`. -/
theorem C121_f64 (A : binary64.Arith fl) (b : LocalBuilder) (hn10 : b.n ≤ 10) (hg : circuitCost b.pipeline ≤ 64000)
    (it : List (Reg × ℕ)) (h : ∀ p ∈ it, ∀ q ∈ p.1, q < b.n) (hp : ∀ e ∈ b.pipeline, SegU b.n e)
    (els : List (ElemP A.Num)) (hels : List.Forall₂ (ElemAs A) els b.pipeline) (idx : List ℕ) (hn : idx.Nodup) (hidx : ∀ i ∈ idx, i < b.n)
    (d : ℕ → binary64.Fin) (hd : ∀ j, j < 2 ^ 53 → (d j).1 = (j : ℝ) / 2 ^ 53) :
    ∃ i v, initialIndex b.n it = some i ∧ (∀ rnds, b.calculateStateWithInit it rnds = some (v, [])) ∧
      ∀ (run : ℕ → StateP A.Num binary64.Part)
        (_ : ∀ j, j < 2 ^ 53 → RunsP A.prec (fun c : A.Num => c) (fun c => c) b.n (fun _ => some (d j)) (els ++ [.measurement idx])
          ⟨(List.replicate (2 ^ b.n) 0).set i 1, List.replicate (2 ^ b.n) 0, []⟩ (run j)) (m : ℕ) (_ : m < 2 ^ idx.length),
        |(((range (2 ^ 53)).filter fun j => ∃ p, (run j).measurements = [(m, p)]).card : ℝ) / 2 ^ 53 - bornProb b.n idx m (vals id v)| ≤ 1 / 2 ^ 24 := by
  obtain ⟨c1, -, ⟨c3, c4⟩, -⟩ := C88_formats b.n
  have he : binary64.eps = (2 : ℝ)⁻¹ ^ 53 := rfl
  have hG : (circuitCost b.pipeline : ℝ) ≤ 64000 := by exact_mod_cast hg
  have hG0 : (0 : ℝ) ≤ circuitCost b.pipeline := by positivity
  obtain ⟨i, v, h1, h2, -, h3⟩ := C121_frequency A c3 c4 b (c1 (by omega)) it h hp els hels idx hn hidx (by
    rw [he]
    norm_num
    linarith)
  refine ⟨i, v, h1, h2, fun run hrun m hm => ?_⟩
  have key := h3 (2 ^ 53) (by norm_num) 0 d (fun j hj => by rw [hd j hj, Nat.cast_pow, Nat.cast_ofNat, sub_self, abs_zero]) run hrun m hm
  have h2n : (2 : ℝ) ^ b.n ≤ 2 ^ 10 := pow_le_pow_right₀ (by norm_num) hn10
  have h2p : (0 : ℝ) < 2 ^ b.n := by positivity
  have hE : (circuitCost b.pipeline : ℝ) * binary64.eps ≤ 64000 / 2 ^ 53 := by
    rw [he]
    norm_num
    linarith
  have hE0 : 0 ≤ (circuitCost b.pipeline : ℝ) * binary64.eps := by rw [he]; positivity
  have hE2 : (circuitCost b.pipeline : ℝ) * binary64.eps * (2 + (circuitCost b.pipeline : ℝ) * binary64.eps) ≤ 64000 / 2 ^ 53 * 3 := by
    refine mul_le_mul hE ?_ (by linarith) (by norm_num)
    norm_num at hE ⊢
    linarith
  have hq : 2 ^ b.n * binary64.eps ≤ 2 ^ 10 / 2 ^ 53 := by
    rw [he]
    norm_num at h2n ⊢
    linarith
  rw [Nat.cast_pow, Nat.cast_ofNat] at key
  refine key.trans ?_
  generalize (circuitCost b.pipeline : ℝ) * binary64.eps * (2 + (circuitCost b.pipeline : ℝ) * binary64.eps) = X at hE2 ⊢
  generalize 2 ^ b.n * binary64.eps = Y at hq ⊢
  generalize (2 : ℝ) ^ b.n = Z at h2n h2p ⊢
  have hB : 2 * (X + 20 * Y + 0) + 1 / 2 ^ 53 ≤ 2 * (64000 / 2 ^ 53 * 3 + 20 * (2 ^ 10 / 2 ^ 53)) + 1 / 2 ^ 53 := by linarith
  have := mul_le_mul_of_nonneg_left hB (show 0 ≤ Z + 1 by linarith)
  have h4 : (Z + 1) * (2 * (64000 / 2 ^ 53 * 3 + 20 * (2 ^ 10 / 2 ^ 53)) + 1 / 2 ^ 53) ≤
      (2 ^ 10 + 1) * (2 * (64000 / 2 ^ 53 * 3 + 20 * (2 ^ 10 / 2 ^ 53)) + 1 / 2 ^ 53) := mul_le_mul_of_nonneg_right (by linarith) (by norm_num)
  have h5 : Z / 2 ^ 53 ≤ 2 ^ 10 / 2 ^ 53 := div_le_div_of_nonneg_right h2n (by norm_num)
  have h6 : ((2 : ℝ) ^ 10 + 1) * (2 * (64000 / 2 ^ 53 * 3 + 20 * (2 ^ 10 / 2 ^ 53)) + 1 / 2 ^ 53) + 2 ^ 10 / 2 ^ 53 ≤ 1 / 2 ^ 24 := by norm_num
  linarith

/-- the draws of `rand::random::<f64>()` are numbers of the format -/
theorem draws_fit : ∃ d : ℕ → binary64.Fin, ∀ j, j < 2 ^ 53 → (d j).1 = (j : ℝ) / 2 ^ 53 := by
  have key : ∀ j : ℕ, ∃ x : binary64.Fin, j < 2 ^ 53 → x.1 = (j : ℝ) / 2 ^ 53 := by
    intro j
    by_cases hj : j < 2 ^ 53
    · have hj' : (j : ℝ) < 2 ^ 53 := by exact_mod_cast hj
      have hj0 : (0 : ℝ) ≤ j := by positivity
      refine ⟨⟨(j : ℝ) / 2 ^ 53, ⟨j, -53, ?_, by decide, ?_⟩, ?_⟩, fun _ => rfl⟩
      · rw [abs_of_nonneg (by positivity)]
        exact_mod_cast hj
      · rw [zpow_neg, div_eq_mul_inv]
        norm_cast
      · rw [abs_of_nonneg (by positivity)]
        refine ((div_le_one (by positivity)).mpr hj'.le).trans ?_
        show 1 ≤ ((2 : ℝ) ^ 53 - 1) * (2 : ℝ) ^ (971 : ℤ)
        exact one_le_mul_of_one_le_of_one_le (by norm_num) (one_le_zpow₀ (by norm_num) (by norm_num))
    · exact ⟨⟨0, ⟨0, 0, by norm_num, by decide, by simp⟩, by
        rw [abs_zero]
        show 0 ≤ ((2 : ℝ) ^ 53 - 1) * (2 : ℝ) ^ (971 : ℤ)
        have : (0 : ℝ) < (2 : ℝ) ^ (971 : ℤ) := by positivity
        exact mul_nonneg (by norm_num) this.le⟩, fun h => absurd h hj⟩
  choose d hd using key
  exact ⟨d, hd⟩

/-- instance: H on the first of two qubits, both measured, with rounded entries and the draws of `rand` -/
example (A : binary64.Arith fl) : ∃ (els : List (ElemP A.Num)) (d : ℕ → binary64.Fin) (v : List ℂ),
    ∀ (run : ℕ → StateP A.Num binary64.Part), (∀ j, j < 2 ^ 53 → RunsP A.prec (fun c : A.Num => c) (fun c => c) 2 (fun _ => some (d j))
      (els ++ [.measurement [0, 1]]) ⟨(List.replicate (2 ^ 2) 0).set 0 1, List.replicate (2 ^ 2) 0, []⟩ (run j)) →
      |(((range (2 ^ 53)).filter fun j => ∃ p, (run j).measurements = [(1, p)]).card : ℝ) / 2 ^ 53 - bornProb 2 [0, 1] 1 (vals id v)| ≤ 1 / 2 ^ 24 := by
  have hn : ‖((1 / Real.sqrt 2 : ℝ) : ℂ)‖ ≤ 3 := by
    rw [Complex.norm_real, Real.norm_of_nonneg (by positivity), div_le_iff₀ (by positivity)]
    have : 1 ≤ Real.sqrt 2 := Real.one_le_sqrt.mpr (by norm_num)
    linarith
  have hels : List.Forall₂ (ElemAs A) [.op (.matrix [0] [store A ((1 / Real.sqrt 2 : ℝ) : ℂ), store A ((1 / Real.sqrt 2 : ℝ) : ℂ),
      store A ((1 / Real.sqrt 2 : ℝ) : ℂ), store A (-((1 / Real.sqrt 2 : ℝ) : ℂ))])] [([0], ⟨1, .unitary .H⟩)] := by
    refine .cons (.gate _ _ _ _ _ rfl (.matrix _ _ _ ?_)) .nil
    simp only [List.forall₂_cons, List.forall₂_nil_left_iff, and_true]
    exact ⟨store_storedAs A _ hn, store_storedAs A _ hn, store_storedAs A _ hn, store_storedAs A _ (by rwa [norm_neg])⟩
  obtain ⟨d, hd⟩ := draws_fit
  obtain ⟨i, v, h1, -, h3⟩ := C121_f64 A ⟨[([0], ⟨1, .unitary .H⟩)], 2, [], 0⟩ (by norm_num) (by decide) [] (by simp)
    (by simp [SegU, SegOK, EntryOK, UObj.Shape]) _ hels [0, 1] (by simp) (by simp) d hd
  obtain rfl : 0 = i := Option.some.inj h1
  exact ⟨_, d, v, fun run hrun => h3 run hrun 1 (by norm_num)⟩

end Verif.Props
