import Verif.Proofs.Dense
import Verif.Props.Simon
import Verif.Props.Teleport
import Verif.Props.FloatCertain

/-!
# Property C130: dense coding

`2n` bits are sent with `n` qubits of an entangled pair, for every `n` and every message, in exact and in floating point arithmetic.
-/

namespace Verif.Props
open Complex

/-- the main program: the pair, the sender, the receiver and its two measurements -/
def denseActs (n u v : ℕ) : List Act := [.run densePair, .run (denseSend n u v), .run denseRead, .measure 0, .measure 1]

theorem denseActs_takes {n : ℕ} (hn : 0 < n) (u v : ℕ) : ∀ a ∈ denseActs n u v, a.Takes (blocks 0 [n, n]) := by
  rw [blocks_simon]
  obtain ⟨h1, h2, h3⟩ := dense_takes hn u v
  intro a ha
  simp only [denseActs, List.mem_cons, List.not_mem_nil, or_false] at ha
  rcases ha with rfl | rfl | rfl | rfl | rfl
  · exact h1
  · exact h2
  · exact h3
  · exact Nat.zero_lt_two
  · exact Nat.one_lt_two

/-- the outcomes are certain -/
theorem dense_sure {n : ℕ} {u v : ℕ} (hu : u < 2 ^ n) (hv : v < 2 ^ n) :
    ActsSure {0, 1} (blocks 0 [n, n]) (denseActs n u v) (ket (initAsg [])) [v, u] (ket (triAsg n v u 0)) := by
  have hi : initAsg [] = fun _ => false := by funext q; simp [initAsg]
  have e := dense_wave hu hv
  have g := ActsSure.ket (D := {0, 1}) le_rfl (i := 0) (ActsSure.ket (D := {0, 1}) le_rfl (i := 1) (ActsSure.nil (rs := [List.range n, List.range' n n]) (ket (triAsg n v u 0))))
  rw [show ([List.range n, List.range' n n] : List Reg).getD 0 [] = List.range n from rfl, show ([List.range n, List.range' n n] : List Reg).getD 1 [] = List.range' n n from rfl,
    tri_a hv, tri_b hu] at g
  rw [blocks_simon, hi]
  refine .run _ _ _ _ _ (.run _ _ _ _ _ (.run _ _ _ _ _ ?_))
  rw [lift_eq, lift_eq, lift_eq, e]
  exact g

/-- C130: for every message `u`, `v` the program succeeds and the receiver measures `v` and `u` with probability 1. -/
theorem C130_dense {n : ℕ} (hn : 0 < n) {u v : ℕ} (hu : u < 2 ^ n) (hv : v < 2 ^ n) :
    ∃ s, mainProg [n, n] (denseActs n u v) LocalBuilder.default = .ok ([List.range n, List.range' n n], [0, 1]) s ∧ outcomeProb s [] [v, u] = 1 := by
  have hpos : ∀ k ∈ [n, n], 0 < k := by simp [hn]
  have hT := denseActs_takes hn u v
  obtain ⟨s, h⟩ := C106_runs [n, n] hpos _ hT
  refine ⟨s, by rw [h, blocks_simon]; rfl, ?_⟩
  have hnd : (blocks 0 [n, n]).flatten.Nodup := by rw [blocks_eq, ranges_flatten]; exact List.nodup_range'
  obtain ⟨h1, -⟩ := (C127_certain (blocks 0 [n, n]) hnd (denseActs n u v) hT [v, u] rfl (ket (initAsg [])) _).mpr
    ⟨{0, 1}, Set.toFinite _, dense_sure hu hv⟩
  rw [C106_born hpos hT h [] (by simp) [v, u] rfl, h1, normW_ket, ENNReal.ofReal_one]

/-- C130: whatever numbers in (0,1) are drawn, the handles fetch `v` and `u`, with probability 1, and the state returned is the basis state with `v` and `u` in the registers. -/
theorem C130_draw {n : ℕ} (hn : 0 < n) {u v : ℕ} (hu : u < 2 ^ n) (hv : v < 2 ^ n) {out : List Reg × List ℕ} {s : LocalBuilder}
    (h : mainProg [n, n] (denseActs n u v) LocalBuilder.default = .ok out s) (rnds : ℕ → ℝ) (hr : ∀ k, 0 < rnds k ∧ rnds k < 1) :
    ∃ w l, s.calculateStateWithInit [] rnds = some (w, l) ∧ getMeasurement l 0 = some (v, 1) ∧ getMeasurement l 1 = some (u, 1) ∧
      Rep s.n w (ket (putVal (List.range n) v (putVal (List.range' n n) u fun _ => false))) := by
  have hpos : ∀ k ∈ [n, n], 0 < k := by simp [hn]
  have hT := denseActs_takes hn u v
  have hi : initAsg [] = fun _ => false := by funext q; simp [initAsg]
  have hz : triAsg n v u 0 = putVal (List.range n) v (putVal (List.range' n n) u fun _ => false) := by
    unfold triAsg
    congr 2
    funext q
    simp [putVal]
  obtain ⟨w, l, ms, a1, a2, a3, a4, a5, a6⟩ := C106_state hpos hT h [] (by simp) rnds hr
  rw [show measures (denseActs n u v) = 2 from rfl, List.length_eq_two] at a3
  obtain ⟨x, y, rfl⟩ := a3
  have g0 : ([List.range n, List.range' n n] : List Reg).getD 0 [] = List.range n := rfl
  have g1 : ([List.range n, List.range' n n] : List Reg).getD 1 [] = List.range' n n := rfl
  have z : ∀ (r : Reg) m, projW r m 0 = 0 := fun r m => (projL r m).map_zero
  have ew : actsW [List.range n, List.range' n n] (denseActs n u v) [x, y] (ket fun _ => false) =
      projW (List.range' n n) y (projW (List.range n) x (ket (triAsg n v u 0))) := by
    rw [denseActs, acts_run, acts_run, acts_run, acts_measure, acts_measure, actsW, dense_wave hu hv, g0, g1]
  rw [hi, blocks_simon, ew] at a5 a6
  obtain rfl : v = x := by
    by_contra hc
    rw [← projL_apply (List.range n), projL_ket, tri_a hv, if_neg hc, z, normW_zero] at a5
    exact lt_irrefl _ a5
  have p0 : projW (List.range n) v (ket (triAsg n v u 0)) = ket (triAsg n v u 0) := projW_on (On.ket (tri_a hv))
  rw [p0] at a5 a6
  obtain rfl : u = y := by
    by_contra hc
    rw [← projL_apply, projL_ket, tri_b hu, if_neg hc, normW_zero] at a5
    exact lt_irrefl _ a5
  have p1 : projW (List.range' n n) u (ket (triAsg n v u 0)) = ket (triAsg n v u 0) := projW_on (On.ket (tri_b hu))
  rw [p1, unitW_ket, hz] at a6
  rw [hi, blocks_simon] at a4
  have eP : actsP [List.range n, List.range' n n] (denseActs n u v) [v, u] (ket fun _ => false) = [1, 1] := by
    simp only [denseActs, actsP, lift_eq]
    rw [dense_wave hu hv, g0, g1, p0, p1, normW_ket, div_one]
  rw [eP] at a4
  refine ⟨w, l, a1, ?_, ?_, a6⟩
  · obtain ⟨pr, b1, b2⟩ := a4 0 (by simp)
    rw [b2, ← Option.some.inj b1]
    rfl
  · obtain ⟨pr, b1, b2⟩ := a4 1 (by simp)
    rw [b2, ← Option.some.inj b1]
    rfl

/-- C130: whoever has only the qubits that are sent learns nothing: measured on their way, they give every number with the same probability, whatever the message. -/
theorem C130_secret {n : ℕ} (hn : 0 < n) {u v : ℕ} (hu : u < 2 ^ n) (hv : v < 2 ^ n) :
    ∃ s, mainProg [n, n] [.run densePair, .run (denseSend n u v), .measure 0] LocalBuilder.default = .ok ([List.range n, List.range' n n], [0]) s ∧
      ∀ m < 2 ^ n, outcomeProb s [] [m] = ENNReal.ofReal (1 / 2 ^ n) := by
  have hpos : ∀ k ∈ [n, n], 0 < k := by simp [hn]
  have hT : ∀ a ∈ [Act.run densePair, .run (denseSend n u v), .measure 0], a.Takes (blocks 0 [n, n]) := by
    intro a ha
    refine denseActs_takes hn u v a ?_
    simp only [denseActs, List.mem_cons, List.not_mem_nil, or_false] at ha ⊢
    tauto
  obtain ⟨s, h⟩ := C106_runs [n, n] hpos _ hT
  refine ⟨s, by rw [h, blocks_simon]; rfl, fun m hm => ?_⟩
  have hi : initAsg [] = fun _ => false := by funext q; simp [initAsg]
  have hsq : ∀ k : ℕ, normSq ((-1 : ℂ) ^ k) = 1 := fun k => by rw [map_pow, normSq_neg, map_one, one_pow]
  have hc : normSq ((1 / (Real.sqrt 2 : ℂ)) ^ n) = 1 / 2 ^ n := by
    rw [map_pow, map_div₀, map_one, normSq_ofReal, Real.mul_self_sqrt (by norm_num), div_pow, one_pow]
  rw [C106_born hpos hT h [] (by simp) [m] rfl, hi, blocks_simon, acts_run, acts_run, acts_measure, actsW, dense_sent hu hv,
    show ([List.range n, List.range' n n] : List Reg).getD 0 [] = List.range n from rfl, projW_smul, projW_sum, Finset.sum_eq_single m]
  · rw [projW_smul, projW_on (On.ket (tri_a hm)), normW_smul, normW_smul, normW_ket, hsq, hc, mul_one, mul_one]
  · intro x hx hne
    rw [projW_smul, projW_off (k := x) (On.ket (tri_a (Finset.mem_range.mp hx))) hne, smul_zero]
  · exact fun h => absurd (Finset.mem_range.mpr hm) h

/-- C130 in `f64`: with at most 10 qubits and 1000 gates, every pair of draws further than `2^-30` from 0 and 1 leads to the outcomes `v` and `u`, with probabilities and a
final state that are off by at most `2^-30`. -/
theorem C130_f64 {fl : ℝ → ℝ} (A : binary64.Arith fl) (L : StdLib binary64) (hL : L.Accurate binary64.eps) {n : ℕ} (hn : 0 < n) {u v : ℕ} (hu : u < 2 ^ n) (hv : v < 2 ^ n)
    {out : List Reg × List ℕ} {s : LocalBuilder} (h : mainProg [n, n] (denseActs n u v) LocalBuilder.default = .ok out s)
    (hs : s.n ≤ 10) (hg : circuitCost s.pipeline ≤ 64000) (c : List (List ℕ × ObjTypeP binary64)) (hm : List.Forall₂ Meant c s.pipeline)
    (hw : ∀ e ∈ c, e.2.Within 1) :
    ∃ els : List (ElemP A.Num), c.mapM (elemP A L) = .ok (els.map elemOf) ∧
      CertainRuns A s.n els 0 {0, 1} [v, u] (ket (putVal (List.range n) v (putVal (List.range' n n) u fun _ => false))) (1 / 2 ^ 30) (1 / 2 ^ 30) (1 / 2 ^ 30) := by
  have hz : triAsg n v u 0 = putVal (List.range n) v (putVal (List.range' n n) u fun _ => false) := by
    unfold triAsg
    congr 2
    funext q
    simp [putVal]
  obtain ⟨els, x, k1, k2, k3⟩ := C127_f64 A L hL (by simp [hn]) (denseActs_takes hn u v) (by show 2 ≤ 4; norm_num) h hs hg [] (by simp) c hm hw (dense_sure hu hv)
  obtain rfl : 0 = x := Option.some.inj k2
  rw [hz] at k3
  exact ⟨els, k1, k3⟩

/-- example: three qubits carry the six bits of 5 and 6 -/
example : ∃ s, mainProg [3, 3] (denseActs 3 5 6) LocalBuilder.default = .ok ([List.range 3, List.range' 3 3], [0, 1]) s ∧ outcomeProb s [] [6, 5] = 1 ∧
    ∀ rnds : ℕ → ℝ, (∀ k, 0 < rnds k ∧ rnds k < 1) → ∃ w l, s.calculateStateWithInit [] rnds = some (w, l) ∧ getMeasurement l 0 = some (6, 1) ∧ getMeasurement l 1 = some (5, 1) := by
  obtain ⟨s, h1, h2⟩ := C130_dense (n := 3) (by norm_num) (u := 5) (v := 6) (by norm_num) (by norm_num)
  refine ⟨s, h1, h2, fun rnds hr => ?_⟩
  obtain ⟨w, l, a1, a2, a3, -⟩ := C130_draw (by norm_num) (u := 5) (v := 6) (by norm_num) (by norm_num) h1 rnds hr
  exact ⟨w, l, a1, a2, a3⟩

/-- example: on their way the three qubits are 4 in an eighth of all cases -/
example : ∃ s, mainProg [3, 3] [.run densePair, .run (denseSend 3 5 6), .measure 0] LocalBuilder.default = .ok ([List.range 3, List.range' 3 3], [0]) s ∧
    outcomeProb s [] [4] = ENNReal.ofReal (1 / 8) := by
  obtain ⟨s, h1, h2⟩ := C130_secret (n := 3) (by norm_num) (u := 5) (v := 6) (by norm_num) (by norm_num)
  refine ⟨s, h1, ?_⟩
  rw [h2 4 (by norm_num)]
  norm_num

/-- example: one qubit carries 1 and 0; circuits as in the theorem exist, and all runs with draws away from 0 and 1 report them -/
example {fl : ℝ → ℝ} (A : binary64.Arith fl) : ∃ (n : ℕ) (els : List (ElemP A.Num)),
    CertainRuns A n els 0 {0, 1} [0, 1] (ket (putVal (List.range 1) 0 (putVal (List.range' 1 1) 1 fun _ => false))) (1 / 2 ^ 30) (1 / 2 ^ 30) (1 / 2 ^ 30) := by
  obtain ⟨s, c, h1, h2, h3, h4, h5⟩ := smallRun_ok (sizes := [1, 1]) (by simp) (denseActs_takes (n := 1) (by norm_num) 1 0) (by krfl) A
  obtain ⟨els, -, k⟩ := C130_f64 A (stdRounded A) (C122_accurate A) (by norm_num) (u := 1) (v := 0) (by norm_num) (by norm_num) h1 h2 h3 c h4 h5
  exact ⟨s.n, els, k⟩

end Verif.Props
