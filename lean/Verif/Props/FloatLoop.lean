import Verif.Proofs.FloatLoop2
import Verif.Props.IeeeMeasure2
import Verif.Props.Stale

/-!
# Property C119: stochastic measurements and whole calculations in floating point arithmetic
-/

namespace Verif.Props
open Verif MatrixOp Format.Arith Finset

/-- C119 (conformance): with exact real numbers for the machine numbers, the loop is the one of the exact model, for all kinds of circuit elements,
all buffers and draws and every order of the additions. -/
theorem C119_exact (n : ℕ) (rnds : ℕ → ℝ) (els : List (ElemC ℂ)) (p : Pipeline) (h : List.Forall₂ ElemIs els p) (hp : ∀ e ∈ p, ∀ q ∈ e.1, q < n)
    (s t : StateC ℂ ℝ) (hs : s.state.length = 2 ^ n) (ha : s.arena.length = 2 ^ n) :
    RunsC exactPrec reIm (fun c => ⟨c.1, c.2⟩) n rnds els s t ↔ calcFold n rnds p s.exact = some t.exact := runsC_exact n rnds els p h hp s t hs ha

/-- instance: a NOT, a global phase, a stochastic measurement and a measurement -/
example : List.Forall₂ ElemIs [.op (.matrix [0] [0, 1, 1, 0]), .globalPhase, .stochastic [0, 1], .measurement [1]]
    [([0], ⟨1, .unitary .X⟩), ([0], ⟨1, .unitary (.GlobalPhase (.floating 1))⟩), ([0, 1], ⟨2, .meas .stochastic⟩), ([1], ⟨1, .meas .measurement⟩)] :=
  .cons (.gate _ _ _ _ (by simp) rfl) (.cons (.phase _ _ _) (.cons (.stochastic _ _) (.cons (.measurement _ _) .nil)))

variable {f : Format} {fl : ℝ → ℝ}

/-- C119, one stochastic measurement. The computed state is finite and within `ε` of `φ`, whose length is at most one. Then there is a result, and
every result, whatever the order of the additions, consists of one number for each outcome, all of them finite, not negative, and within
`ε(2+ε) + 24·2^(n-p)` of the probability of the outcome in the state `φ`. -/
theorem C119_probs (A : f.Arith fl) (hf : 10 ≤ f.p) (he : f.emin + 2 * f.p + 4 ≤ 0) (n : ℕ) (hN : 2 ^ n * f.eps ≤ 1 / 64) (idx : List ℕ) (hn : idx.Nodup)
    (hidx : ∀ i ∈ idx, i < n) (v : List A.Num) (hv : v.length = 2 ^ n) (hfin : ∀ c ∈ v, A.fin c) (φ : ℕ → ℂ) (hφ : nrm n φ ≤ 1) (ε : ℝ) (hε : ε ≤ 1)
    (hvφ : nrm n (fun r => vals A.val v r - φ r) ≤ ε) :
    (∃ ps, ProbsP A.prec n idx v ps) ∧ ∀ ps, ProbsP A.prec n idx v ps →
      List.Forall₂ (NearProb f (ε * (2 + ε) + 24 * (2 ^ n * f.eps))) ps ((List.range (2 ^ idx.length)).map fun m => bornProb n idx m φ) :=
  probs_err A hf he n hN idx hn hidx v hv hfin φ hφ ε hε hvφ

theorem near_sum (κ : ℝ) (ps : List f.Part) (Ps : List ℝ) (h : List.Forall₂ (NearProb f κ) ps Ps) :
    ∃ ys : List f.Fin, ps = ys.map some ∧ |(ys.map fun y => y.1).sum - Ps.sum| ≤ Ps.length * κ := by
  induction h with
  | nil => exact ⟨[], rfl, by simp⟩
  | @cons p P ps Ps h _ ih =>
    obtain ⟨y, rfl, -, y1⟩ := h
    obtain ⟨ys, rfl, y2⟩ := ih
    refine ⟨y :: ys, rfl, ?_⟩
    simp only [List.map_cons, List.sum_cons, List.length_cons]
    push_cast
    rw [show y.1 + (ys.map fun y => y.1).sum - (P + Ps.sum) = (y.1 - P) + ((ys.map fun y => y.1).sum - Ps.sum) by ring]
    refine (abs_add_le _ _).trans ?_
    linarith

/-- ... and if `φ` has length one, the numbers add up to one, up to `2^k` times that bound for `k` measured qubits. -/
theorem C119_total (A : f.Arith fl) (hf : 10 ≤ f.p) (he : f.emin + 2 * f.p + 4 ≤ 0) (n : ℕ) (hN : 2 ^ n * f.eps ≤ 1 / 64) (idx : List ℕ) (hn : idx.Nodup)
    (hidx : ∀ i ∈ idx, i < n) (v : List A.Num) (hv : v.length = 2 ^ n) (hfin : ∀ c ∈ v, A.fin c) (φ : ℕ → ℂ) (hφ : nrm n φ = 1) (ε : ℝ) (hε : ε ≤ 1)
    (hvφ : nrm n (fun r => vals A.val v r - φ r) ≤ ε) (ps : List f.Part) (h : ProbsP A.prec n idx v ps) :
    ∃ ys : List f.Fin, ps = ys.map some ∧ |(ys.map fun y => y.1).sum - 1| ≤ 2 ^ idx.length * (ε * (2 + ε) + 24 * (2 ^ n * f.eps)) := by
  obtain ⟨ys, y1, y2⟩ := near_sum _ _ _ ((C119_probs A hf he n hN idx hn hidx v hv hfin φ hφ.le ε hε hvφ).2 ps h)
  refine ⟨ys, y1, ?_⟩
  have e : ((List.range (2 ^ idx.length)).map fun m => bornProb n idx m φ).sum = 1 := by
    have h1 := bornProb_sum n idx φ
    have h2 : ∑ x ∈ range (2 ^ n), Complex.normSq (φ x) = nrm n φ ^ 2 := by
      rw [nrm_sq]
      exact sum_congr rfl fun x _ => Complex.normSq_eq_norm_sq _
    rw [h2, hφ, one_pow] at h1
    rw [← h1]
    generalize 2 ^ idx.length = k
    induction k with
    | zero => simp
    | succ k ih => rw [List.range_succ, List.map_append, List.sum_append, ih, sum_range_succ]; simp
  rw [e, List.length_map, List.length_range] at y2
  exact_mod_cast y2

/-- the initial states of both computations -/
theorem initial_near (A : f.Arith fl) (hf : 10 ≤ f.p) (n i : ℕ) (hi : i < 2 ^ n) :
    nrm n (vals id ((List.replicate (2 ^ n) (0 : ℂ)).set i 1)) = 1 ∧ nrm n (vals id (List.replicate (2 ^ n) (0 : ℂ))) = 0 ∧
    (∀ c ∈ (List.replicate (2 ^ n) (0 : A.Num)).set i 1, A.fin c) ∧ (∀ c ∈ List.replicate (2 ^ n) (0 : A.Num), A.fin c) ∧
    nrm n (fun r => vals A.val ((List.replicate (2 ^ n) (0 : A.Num)).set i 1) r - vals id ((List.replicate (2 ^ n) (0 : ℂ)).set i 1) r) ≤ 0 ∧
    nrm n (fun r => vals A.val (List.replicate (2 ^ n) (0 : A.Num)) r - vals id (List.replicate (2 ^ n) (0 : ℂ)) r) ≤ 0 := by
  have R := A.limits (by omega)
  have hz : nrm n (fun _ => (0 : ℂ)) = 0 := by simp [nrm]
  have hv : ∀ {K : Type} [Zero K] (val : K → ℂ), val 0 = 0 → ∀ r, r < 2 ^ n → vals val (List.replicate (2 ^ n) (0 : K)) r = 0 := by
    intro K _ val h0 r hr
    unfold vals
    rw [List.getElem?_replicate, if_pos hr]
    exact h0
  refine ⟨?_, ?_, ?_, ?_, ?_, ?_⟩
  · unfold nrm
    rw [sum_congr rfl fun r hr => by rw [vals_initial id rfl rfl n i r (mem_range.mp hr)]]
    have : ∀ r, ‖(if r = i then (1 : ℂ) else 0)‖ ^ 2 = if r = i then 1 else 0 := by
      intro r; split <;> simp
    rw [sum_congr rfl fun r _ => this r, sum_ite_eq', if_pos (mem_range.mpr hi), Real.sqrt_one]
  · rw [nrm_congr n _ (fun _ => 0) (hv id rfl), hz]
  · intro a ha
    rcases List.mem_or_eq_of_mem_set ha with ha | rfl
    · rw [List.mem_replicate] at ha
      rw [ha.2]; exact R.fin_zero
    · exact R.fin_one
  · intro a ha
    rw [List.mem_replicate] at ha
    rw [ha.2]; exact R.fin_zero
  · rw [nrm_congr n _ (fun _ => 0) (fun r hr => by
      rw [vals_initial id rfl rfl n i r hr, vals_initial A.val R.val_zero R.val_one n i r hr, sub_self]), hz]
  · rw [nrm_congr n _ (fun _ => 0) (fun r hr => by rw [hv id rfl r hr, hv A.val R.val_zero r hr, sub_self]), hz]

open Classical in
/-- C119, a circuit with all kinds of elements, for every initial value. If along the exact run no draw comes near a sum at which an outcome
changes (`ClearC`), every run in floating point arithmetic gives the same kinds of results with the same outcomes, all probabilities are finite
and correct up to `κ`, and the final state is finite and within `δ` of the exact one. -/
theorem C119_circuit (A : f.Arith fl) (hf : 10 ≤ f.p) (he : f.emin + 2 * f.p + 4 ≤ 0) (b : LocalBuilder) (hN : 2 ^ b.n * f.eps ≤ 1 / 64)
    (it : List (Reg × ℕ)) (h : ∀ p ∈ it, ∀ q ∈ p.1, q < b.n) (hp : ∀ e ∈ b.pipeline, AnyElem b.n e) (els : List (ElemC A.Num))
    (hels : List.Forall₂ (ElemAsC A) els b.pipeline) (rnds : ℕ → f.Fin)
    (hr : (∃ e ∈ b.pipeline, e.2.object = .meas .measurement) → ∀ k, 0 < (rnds k).1 ∧ (rnds k).1 < 1) (κ δ : ℝ)
    (hc : ∀ i, initialIndex b.n it = some i → ClearC f b.n (fun k => (rnds k).1) κ b.pipeline
      ⟨(List.replicate (2 ^ b.n) 0).set i 1, List.replicate (2 ^ b.n) 0, []⟩ 0 0 δ) :
    ∃ i v ms, initialIndex b.n it = some i ∧ b.calculateStateWithInit it (fun k => (rnds k).1) = some (v, ms) ∧
      (∃ t, RunsC A.prec (fun c : A.Num => c) (fun c => c) b.n (fun k => some (rnds k)) els
        ⟨(List.replicate (2 ^ b.n) 0).set i 1, List.replicate (2 ^ b.n) 0, []⟩ t) ∧
      ∀ t, RunsC A.prec (fun c : A.Num => c) (fun c => c) b.n (fun k => some (rnds k)) els
        ⟨(List.replicate (2 ^ b.n) 0).set i 1, List.replicate (2 ^ b.n) 0, []⟩ t →
        List.Forall₂ (SameResult f κ) t.measurements ms ∧ t.state.length = 2 ^ b.n ∧ (∀ c ∈ t.state, A.fin c) ∧
          nrm b.n (fun r => vals A.val t.state r - vals id v r) ≤ δ := by
  obtain ⟨i, i1, i2, -⟩ := initialIndex_eq b.n it h
  obtain ⟨z1, z2, z3, z4, z5, z6⟩ := initial_near A hf b.n i i2
  obtain ⟨s', k1, k2, k3⟩ := clear_runC A hf he b.n hN rnds κ b.pipeline hp hr els hels _ 0 0 δ (hc i i1) (by simp) (by simp) z1.le
    (by rw [z2]; norm_num) ⟨(List.replicate (2 ^ b.n) 0).set i 1, List.replicate (2 ^ b.n) 0, []⟩ (by simp) (by simp) z3 z4 z5 z6 rfl
  refine ⟨i, s'.state, s'.measurements, i1, ?_, k2, ?_⟩
  · unfold LocalBuilder.calculateStateWithInit
    simp only [Nat.one_shiftLeft, i1, Option.bind_eq_bind, Option.bind_some, List.length_replicate]
    rw [if_pos i2, k1]
    rfl
  · intro t ht
    obtain ⟨h1, h2, h3, ms, ms', h4, h5, h6⟩ := k3 t ht
    refine ⟨?_, h1, h2, h3⟩
    rw [h4, h5]
    exact h6

open Classical in
/-- C119, a circuit of gates, global phases and stochastic measurements, for every initial value and with no condition on the draws, which it does
not use. With `E = (cost of the circuit)·2^-p` at most one (the cost is 64 for each gate, `16·4^k` for a user matrix on `k` qubits): a calculation in floating point arithmetic ends without a panic, and whatever the
order of the additions it reports as many probabilities as the exact one, finite, not negative, and correct up to `E(2+E) + 24·2^(n-p)`; the
final state is finite and within `E` of the exact one. -/
theorem C119_stochastic (A : f.Arith fl) (hf : 10 ≤ f.p) (he : f.emin + 2 * f.p + 4 ≤ 0) (b : LocalBuilder) (hN : 2 ^ b.n * f.eps ≤ 1 / 64)
    (it : List (Reg × ℕ)) (h : ∀ p ∈ it, ∀ q ∈ p.1, q < b.n) (hp : ∀ e ∈ b.pipeline, AnyElem b.n e ∧ e.2.object ≠ .meas .measurement)
    (els : List (ElemC A.Num)) (hels : List.Forall₂ (ElemAsC A) els b.pipeline) (rnds : ℕ → f.Fin) (hE : (circuitCost b.pipeline : ℝ) * f.eps ≤ 1) :
    ∃ i v ms, initialIndex b.n it = some i ∧ b.calculateStateWithInit it (fun k => (rnds k).1) = some (v, ms) ∧
      (∃ t, RunsC A.prec (fun c : A.Num => c) (fun c => c) b.n (fun k => some (rnds k)) els
        ⟨(List.replicate (2 ^ b.n) 0).set i 1, List.replicate (2 ^ b.n) 0, []⟩ t) ∧
      ∀ t, RunsC A.prec (fun c : A.Num => c) (fun c => c) b.n (fun k => some (rnds k)) els
        ⟨(List.replicate (2 ^ b.n) 0).set i 1, List.replicate (2 ^ b.n) 0, []⟩ t →
        List.Forall₂ (SameResult f ((circuitCost b.pipeline : ℝ) * f.eps * (2 + (circuitCost b.pipeline : ℝ) * f.eps) + 24 * (2 ^ b.n * f.eps)))
          t.measurements ms ∧ t.state.length = 2 ^ b.n ∧ (∀ c ∈ t.state, A.fin c) ∧
          nrm b.n (fun r => vals A.val t.state r - vals id v r) ≤ (circuitCost b.pipeline : ℝ) * f.eps := by
  obtain ⟨i, i1, i2, -⟩ := initialIndex_eq b.n it h
  obtain ⟨δ, d1, d2⟩ := clear_quiet (f := f) b.n (fun k => (rnds k).1) b.pipeline hp 0 (by simpa using hE) _ le_rfl
    ⟨(List.replicate (2 ^ b.n) 0).set i 1, List.replicate (2 ^ b.n) 0, []⟩ (by simp) (by simp) 0 0 le_rfl le_rfl (by simp) (by simp)
  simp only [Nat.add_zero] at d1 d2
  obtain ⟨i', v, ms, k1, k2, k3, k4⟩ := C119_circuit A hf he b hN it h (fun e he => (hp e he).1) els hels rnds
    (fun ⟨e, he, h'⟩ => absurd h' (hp e he).2) _ δ (fun i' hi' => by
      obtain rfl : i = i' := by rw [i1] at hi'; exact Option.some.inj hi'
      exact d1)
  refine ⟨i', v, ms, k1, k2, k3, fun t ht => ?_⟩
  obtain ⟨h1, h2, h3, h4⟩ := k4 t ht
  exact ⟨h1, h2, h3, h4.trans d2⟩

/-- numbers of size at most three can be stored -/
theorem stores_matrix (A : f.Arith fl) (idx : List ℕ) (d : List ℂ) (h : ∀ z ∈ d, ‖z‖ ≤ 3) :
    StoresIn A.fin A.val f.relErr f.absErr (.matrix idx (d.map (store A))) (.matrix idx d) := by
  refine .matrix _ _ _ ?_
  rw [List.forall₂_map_left_iff]
  exact List.forall₂_same.mpr fun z hz => store_storedAs A z (h z hz)

/-- C119 (the circuits of the theorems exist): every circuit of these elements can be stored. -/
theorem C119_stored (A : f.Arith fl) (n : ℕ) (p : Pipeline) (hp : ∀ e ∈ p, AnyElem n e) : ∃ els : List (ElemC A.Num), List.Forall₂ (ElemAsC A) els p := by
  induction p with
  | nil => exact ⟨[], .nil⟩
  | cons e p ih =>
    obtain ⟨els, h⟩ := ih fun e he => hp e (by simp [he])
    suffices ∃ el, ElemAsC A el e by
      obtain ⟨el, h'⟩ := this
      exact ⟨el :: els, .cons h' h⟩
    have he := hp e (by simp)
    obtain ⟨idx, w, o⟩ := e
    cases o with
    | meas t =>
      cases t with
      | measurement => exact ⟨_, .measurement idx w⟩
      | stochastic => exact ⟨_, .stochastic idx w⟩
    | unitary g =>
      by_cases hg : ∃ ρ, g = .GlobalPhase ρ
      · obtain ⟨ρ, rfl⟩ := hg
        exact ⟨_, .phase idx w ρ⟩
      · rcases he with (⟨⟨⟨-, -, h3⟩, -⟩, hm⟩ | ⟨h1, -⟩) | ⟨⟨ρ, h1⟩ | h1, -⟩
        · have hs := h3 g rfl
          obtain ⟨U, u1, -⟩ := unitaryOp_ok idx g hs fun ρ hρ => hg ⟨ρ, hρ⟩
          suffices ∃ op, StoresIn A.fin A.val f.relErr f.absErr op U by
            obtain ⟨op, h'⟩ := this
            exact ⟨_, .gate op U idx w g u1 h'⟩
          have mat : ∀ (idx : List ℕ) (d : List ℂ) (U : MatrixOp ℂ), makeMatrixOp idx d = .ok U → (∀ z ∈ d, ‖z‖ ≤ 3) →
              ∃ op, StoresIn A.fin A.val f.relErr f.absErr op U := by
            intro idx d U hU hd
            unfold makeMatrixOp at hU
            simp only at hU
            split at hU
            · cases hU
            · split at hU
              · cases hU
              · obtain rfl : MatrixOp.matrix idx d = U := by injection hU
                exact ⟨_, stores_matrix A idx d hd⟩
          have hn : ‖((1 / Real.sqrt 2 : ℝ) : ℂ)‖ ≤ 3 := by
            rw [Complex.norm_real, Real.norm_of_nonneg (by positivity), div_le_iff₀ (by positivity)]
            have : 1 ≤ Real.sqrt 2 := Real.one_le_sqrt.mpr (by norm_num)
            linarith
          have hx : ∀ x : ℝ, ‖Complex.exp ((x : ℂ) * Complex.I)‖ ≤ 3 := fun x => by rw [Complex.norm_exp_ofReal_mul_I]; norm_num
          cases g with
          | X => exact mat _ _ U u1 (by simp)
          | Y => exact mat _ _ U u1 (by simp)
          | Z => exact mat _ _ U u1 (by simp)
          | S => exact mat _ _ U u1 (by simp)
          | H => exact mat _ _ U u1 (by simp only [List.mem_cons, List.not_mem_nil, or_false, forall_eq_or_imp, forall_eq, norm_neg]; exact ⟨hn, hn, hn, hn⟩)
          | T => exact mat _ _ U u1 (by simp only [List.mem_cons, List.not_mem_nil, or_false, forall_eq_or_imp, forall_eq, norm_zero, norm_one]; exact ⟨by norm_num, by norm_num, by norm_num, hx _⟩)
          | Rz θ => exact mat _ _ U u1 (by simp only [List.mem_cons, List.not_mem_nil, or_false, forall_eq_or_imp, forall_eq, norm_zero]; exact ⟨hx _, by norm_num, by norm_num, hx _⟩)
          | MAT data =>
            refine mat _ _ U u1 fun z hz => ?_
            have hu := hm data rfl
            obtain ⟨hl, -⟩ : data.length = 4 ^ idx.length ∧ 0 < idx.length := hs
            obtain ⟨m, m1, rfl⟩ := List.getElem_of_mem hz
            have hlt : m < 2 ^ idx.length * 2 ^ idx.length := by
              rw [← Nat.mul_pow, ← hl]; exact m1
            have hc : m % 2 ^ idx.length < 2 ^ idx.length := Nat.mod_lt _ (by positivity)
            have hr : m / 2 ^ idx.length < 2 ^ idx.length := Nat.div_lt_of_lt_mul hlt
            have h1 := unitary_col _ _ hu _ hc
            have h2 := single_le_sum (fun r _ => by positivity) (mem_range.mpr hr) (f := fun r => ‖(data[r * 2 ^ idx.length + m % 2 ^ idx.length]?).getD 0‖ ^ 2)
            rw [h1] at h2
            have e : m / 2 ^ idx.length * 2 ^ idx.length + m % 2 ^ idx.length = m := Nat.div_add_mod' m _
            simp only [e, List.getElem?_eq_getElem m1, Option.getD_some] at h2
            nlinarith [norm_nonneg data[m]]
          | GlobalPhase ρ => exact absurd ⟨ρ, rfl⟩ hg
          | CNOT =>
            match idx, hs with
            | [a, b], _ =>
              have : U = .control 1 [a, b] (.matrix [b] [0, 1, 1, 0]) := by
                have e : unitaryOp [a, b] .CNOT = .ok (.control 1 [a, b] (.matrix [b] [0, 1, 1, 0])) := rfl
                rw [e] at u1
                injection u1 with u1
                exact u1.symm
              rw [this]
              exact ⟨_, .control _ _ _ _ (stores_matrix A [b] [0, 1, 1, 0] (by simp))⟩
          | SWAP =>
            unfold unitaryOp at u1
            simp only at u1
            split at u1
            · cases u1
            · unfold makeSwapOp at u1
              split at u1
              · cases u1
              · split at u1
                · cases u1
                · obtain rfl : MatrixOp.swap _ _ = U := by injection u1
                  exact ⟨_, .swap _ _⟩
        · cases h1
        · injection h1 with h1
          exact absurd ⟨ρ, h1⟩ hg
        · cases h1

open Classical in
/-- instance: examples/simple.rs in `f64`. Whatever the order of the additions, the calculation reports four numbers within `10^-13` of
1/2, 0, 0, 1/2 (and returns a state near the one before the CNOT, see C81). -/
theorem C119_simple (A : binary64.Arith fl) (rnds : ℕ → binary64.Fin) : ∃ s, simpleExample LocalBuilder.default = .ok ([0, 1], 0) s ∧
    (∃ els : List (ElemC A.Num), List.Forall₂ (ElemAsC A) els s.pipeline) ∧
    ∀ els : List (ElemC A.Num), List.Forall₂ (ElemAsC A) els s.pipeline → ∃ i, initialIndex s.n [] = some i ∧
      (∃ t, RunsC A.prec (fun c : A.Num => c) (fun c => c) s.n (fun k => some (rnds k)) els
        ⟨(List.replicate (2 ^ s.n) 0).set i 1, List.replicate (2 ^ s.n) 0, []⟩ t) ∧
      ∀ t, RunsC A.prec (fun c : A.Num => c) (fun c => c) s.n (fun k => some (rnds k)) els
        ⟨(List.replicate (2 ^ s.n) 0).set i 1, List.replicate (2 ^ s.n) 0, []⟩ t →
        (∃ ps, t.measurements = [.stochastic ps] ∧ List.Forall₂ (NearProb binary64 (1 / 10 ^ 13)) ps [1 / 2, 0, 0, 1 / 2]) ∧
        nrm 2 (fun r => vals A.val t.state r - vals id [1 / (Real.sqrt 2 : ℂ), 0, 1 / (Real.sqrt 2 : ℂ), 0] r) ≤ 1 / 10 ^ 13 := by
  obtain ⟨s, s1, v, ms, c1, c2, c3⟩ := C81_simple fun k => (rnds k).1
  have hs := s1
  rw [simple_run] at hs
  injection hs with hs1 hs2
  subst hs2
  have hok : ∀ e ∈ ([([0], ⟨1, .unitary .H⟩), ([0, 1], ⟨2, .unitary .CNOT⟩), ([0, 1], ⟨2, .meas .stochastic⟩)] : Pipeline),
      AnyElem 2 e ∧ e.2.object ≠ .meas .measurement := by
    intro e he
    have : e = ([0, 1], ⟨2, .meas .stochastic⟩) ∨ e ∈ ([([0], ⟨1, .unitary .H⟩), ([0, 1], ⟨2, .unitary .CNOT⟩)] : Pipeline) := by
      simp only [List.mem_cons, List.not_mem_nil, or_false] at he ⊢
      tauto
    rcases this with rfl | h'
    · exact ⟨.inr ⟨.inr rfl, by simp, by simp, by simp⟩, by simp⟩
    · refine ⟨.inl (.inl ⟨simple_ok e h', ?_⟩), ?_⟩
      · simp only [List.mem_cons, List.not_mem_nil, or_false] at h'
        intro data hd
        rcases h' with rfl | rfl <;> simp at hd
      · simp only [List.mem_cons, List.not_mem_nil, or_false] at h'
        rcases h' with rfl | rfl <;> simp
  refine ⟨_, s1, C119_stored A 2 _ fun e he => (hok e he).1, fun els hels => ?_⟩
  have he : binary64.eps = (2 : ℝ)⁻¹ ^ 53 := rfl
  obtain ⟨i, v', ms', k1, k2, k3, k4⟩ := C119_stochastic A (C88_formats 2).2.2.1.1 (C88_formats 2).2.2.1.2 _ ((C88_formats 2).1 (by norm_num)) [] (by simp)
    hok els hels rnds (by
      show ((128 : ℕ) : ℝ) * binary64.eps ≤ 1
      rw [he]; norm_num)
  have hk : ((128 : ℕ) : ℝ) * binary64.eps * (2 + ((128 : ℕ) : ℝ) * binary64.eps) + 24 * (2 ^ 2 * binary64.eps) ≤ 1 / 10 ^ 13 := by
    rw [he]; norm_num
  have hk' : ((128 : ℕ) : ℝ) * binary64.eps ≤ 1 / 10 ^ 13 := by
    rw [he]; norm_num
  obtain ⟨rfl, rfl⟩ : v' = v ∧ ms' = ms := by
    have := k2.symm.trans c1
    simpa using this
  refine ⟨i, k1, k3, fun t ht => ?_⟩
  obtain ⟨t1, t2, t3, t4⟩ := k4 t ht
  refine ⟨?_, ?_⟩
  · obtain ⟨v2, ms2, e1, -, e2, -⟩ := C81_exact ⟨[([0], ⟨1, .unitary .H⟩), ([0, 1], ⟨2, .unitary .CNOT⟩), ([0, 1], ⟨2, .meas .stochastic⟩)], 2, [], 1⟩ [] (by simp)
      (by
        intro e he'
        rcases (hok e he').1 with (⟨h1, -⟩ | ⟨h1, -⟩) | h1
        · exact .inl h1
        · exact absurd h1 (hok e he').2
        · exact .inr h1) fun k => (rnds k).1
    obtain rfl : ms2 = ms' := by
      have := e1.symm.trans k2
      simp only [Option.some.injEq, Prod.mk.injEq] at this
      exact this.2
    match ms2, e2, c2, t1 with
    | [.stochastic Ps], _, c2, t1 =>
      obtain rfl : Ps = [1 / 2, 0, 0, 1 / 2] := by
        simpa [getStochasticMeasurement] using c2
      generalize t.measurements = l at t1
      cases t1 with
      | cons h1 h2 =>
        cases h2
        cases h1 with
        | stochastic ps _ h3 => exact ⟨ps, rfl, near_mono hk h3⟩
    | [.single _ _], _, c2, _ => simp [getStochasticMeasurement] at c2
  · rw [← c3]
    exact t4.trans hk'

open Classical in
/-- instance of the condition of `C119_circuit`: two global phases, H, a measurement with the draw 1/4 and a stochastic measurement, in `f64` -/
example : ∃ δ, ClearC binary64 1 (fun _ => 1 / 4) (1 / 8) [([0], ⟨1, .unitary (.GlobalPhase (.floating 1))⟩), ([0], ⟨1, .unitary (.GlobalPhase (.floating 2))⟩),
    ([0], ⟨1, .unitary .H⟩), ([0], ⟨1, .meas .measurement⟩), ([0], ⟨1, .meas .stochastic⟩)] ⟨[1, 0], [0, 0], []⟩ 0 0 δ := by
  obtain ⟨c, s', m, hstep, hn, c1, c2, l1, l2, hk⟩ := h_measure
  obtain ⟨s2, d1, -, -⟩ := calcStep_fits 1 (fun _ => 1 / 4) s' ([0], ⟨1, .meas .stochastic⟩) (by rintro ⟨u, hu, -⟩; cases hu) (by simp) l1 l2
  have he : binary64.eps = (2 : ℝ)⁻¹ ^ 53 := rfl
  have hS : 1 / 2 ≤ Real.sqrt (1 / 2) := by
    refine Real.le_sqrt_of_sq_le ?_
    norm_num
  have hE : 2 * (0 + ((64 : ℕ) : ℝ) * binary64.eps) / Real.sqrt (1 / 2) + 13 * (2 ^ 1 * binary64.eps) ≤ 1 / 1000 := by
    have : 2 * (0 + ((64 : ℕ) : ℝ) * binary64.eps) / Real.sqrt (1 / 2) ≤ 2 * (0 + ((64 : ℕ) : ℝ) * binary64.eps) / (1 / 2) :=
      div_le_div_of_nonneg_left (by rw [he]; norm_num) (by norm_num) hS
    refine (add_le_add_left this _).trans ?_
    rw [he]; norm_num
  have hg : gateCost ([0] : List ℕ).length .H = 64 := rfl
  have hE0 : 0 ≤ 2 * (0 + ((64 : ℕ) : ℝ) * binary64.eps) / Real.sqrt (1 / 2) + 13 * (2 ^ 1 * binary64.eps) := by
    have := eps_pos binary64
    positivity
  refine ⟨_, .phase _ _ _ _ _ _ _ _ _ rfl (.phase _ _ _ _ _ _ _ _ _ rfl (.gate [0] 1 .H _ _ _ _ _ _ (by simp) hstep (by norm_num)
    (.measurement [0] 1 _ _ s' _ (1 / 2) _ _ _ hn c1 c2 ?_ ?_ hk (.stochastic [0] 1 [] s' s2 _ _ _ d1 ?_ ?_ (.nil _ _ _)))))⟩
  · rw [hg, he]; norm_num
  · rw [hg, he]; norm_num
  · rw [hg]; linarith
  · rw [hg]
    have h3 : 24 * (2 ^ 1 * binary64.eps) ≤ 1 / 1000 := by rw [he]; norm_num
    nlinarith

end Verif.Props
