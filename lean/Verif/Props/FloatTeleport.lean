import Verif.Props.Teleport
import Verif.Props.FloatJoint

/-!
# Property C129 in floating point arithmetic

The joint frequencies of the outcomes of the sender and the receiver, by C125.
-/

namespace Verif.Props
open Verif MatrixOp Format.Arith Finset

variable {f : Format} {fl : ℝ → ℝ}

/-- the probabilities of `s`, `t`, `m`: `4^-n` times that of `m` for `q` after `p` on one register -/
noncomputable def teleProb (n : ℕ) (p q : Prog) : List ℕ → ℝ
  | [s, t, m] => if s < 2 ^ n ∧ t < 2 ^ n then 1 / 4 ^ n * normW (actsW [List.range n] [.run p, .run q, .measure 0] [m] (ket fun _ => false)) else 0
  | _ => 0

theorem teleActs_norm {n : ℕ} {p q : Prog} (hp : p.Takes false [List.range n]) (hq : q.Takes false [List.range n]) (ms : List ℕ) (hms : ms.length = 3) :
    normW (actsW [List.range n, List.range' n n, List.range' (n + n) n] (teleActs p q ++ [.measure 2]) ms (ket fun _ => false)) = teleProb n p q ms := by
  obtain ⟨s, t, m, rfl⟩ := List.length_eq_three.mp hms
  rw [teleProb]
  have z : ∀ (r : Reg) m, projW r m 0 = 0 := fun r m => (projL r m).map_zero
  split
  · rename_i h
    rw [teleActs_wave hp hq h.1 h.2, acts_measure, acts_run, acts_run, acts_measure, actsW, actsW,
      show ([List.range n, List.range' n n, List.range' (n + n) n] : List Reg).getD 2 [] = List.range' (n + n) n from rfl,
      show ([List.range n] : List Reg).getD 0 [] = List.range n from rfl, projW_smul, place_proj, normW_smul, normSq_pow,
      place_norm s t ((wave_low hq (wave_low hp (zero_low n))).proj _ _)]
  · rename_i h
    rw [teleActs, List.cons_append, List.cons_append, List.cons_append, List.cons_append, List.nil_append, acts_run, acts_measure, acts_measure, acts_run, acts_measure, tele_get0,
      tele_get1, actsW]
    have : projW (List.range' n n) t (projW (List.range n) s
        (lift ((telePrep p).wave false [List.range n, List.range' n n, List.range' (n + n) n]) (ket fun _ => false))) = 0 := by
      rcases not_and_or.mp h with h | h
      · rw [projW_big (List.range n) s (by simpa using h), z]
      · exact projW_big (List.range' n n) t (by simpa using h) _
    rw [this, map_zero, z, normW_zero]

/-- C129 in floating point arithmetic: over all triples of draws the share of the runs that report `s` and `t` for the sender and `m` for the receiver is `4^-n` times the
probability of `m` for one register, up to the bound of C125. -/
theorem C129_frequency (A : f.Arith fl) (hf : 10 ≤ f.p) (he : f.emin + 2 * f.p + 4 ≤ 0) (L : StdLib f) (hL : L.Accurate f.eps) {n : ℕ} (hn : 0 < n) {p q : Prog}
    (hp : p.Takes false [List.range n]) (hq : q.Takes false [List.range n]) {out : List Reg × List ℕ} {s : LocalBuilder}
    (h : mainProg [n, n, n] (teleActs p q ++ [.measure 2]) LocalBuilder.default = .ok out s) (hN : 2 ^ s.n * f.eps ≤ 1 / 64) (c : List (List ℕ × ObjTypeP f))
    (hm : List.Forall₂ Meant c s.pipeline) (hw : ∀ e ∈ c, e.2.Within 1) (θ : ℝ) (hθ : 0 < θ) :
    ∃ els : List (ElemP A.Num), c.mapM (elemP A L) = .ok (els.map elemOf) ∧
      JointFrequencies A s.n els 0 3 (teleProb n p q) (fun N τ => jointBound f s.n N τ θ s.pipeline 0) := by
  have hT : ∀ a ∈ teleActs p q ++ [.measure 2], a.Takes (blocks 0 [n, n, n]) := by
    intro a ha
    rcases List.mem_append.mp ha with ha | ha
    · exact teleActs_takes hn hp hq a ha
    · rw [List.mem_singleton.mp ha, blocks_tele]
      show (2 : ℕ) < 3; norm_num
  obtain ⟨els, x, h1, h2, h3, h4⟩ := C125_programs A hf he L hL (by simp [hn]) hT h [] (by simp) hN c hm hw θ hθ
  obtain rfl : 0 = x := Option.some.inj h2
  refine ⟨els, h1, h3, fun N hN0 τ d hd rnds hr run hrun ms hms => ?_⟩
  have key := h4 N hN0 τ d hd rnds hr run hrun ms hms
  have hi : initAsg [] = fun _ => false := by funext q; simp [initAsg]
  simp only [hi, blocks_tele] at key
  rw [teleActs_norm hp hq ms hms] at key
  exact key

/-- the bound of C125 for three measurements: in `f64`, with triples of the `2 ^ 53` draws of `rand::random::<f64>()`, at most 10 qubits and circuits of at most 1000 gates, no joint
frequency is off by more than `2^-9`. -/
theorem joint_three (n : ℕ) (hn : n ≤ 10) (p : Pipeline) (hg : circuitCost p ≤ 64000) (h2 : measCount p = 3) :
    jointBound binary64 n (2 ^ 53) 0 (1 / 2 ^ 10) p 0 ≤ 1 / 2 ^ 9 := by
  have he : binary64.eps = (2 : ℝ)⁻¹ ^ 53 := rfl
  have hG : (circuitCost p : ℝ) ≤ 64000 := by exact_mod_cast hg
  have hG0 : (0 : ℝ) ≤ circuitCost p := by positivity
  have h2n : (2 : ℝ) ^ n ≤ 2 ^ 10 := pow_le_pow_right₀ (by norm_num) hn
  have h2p : (0 : ℝ) < 2 ^ n := by positivity
  have hs : Real.sqrt (1 / 2 ^ 10) = 1 / 2 ^ 5 := by
    rw [show (1 : ℝ) / 2 ^ 10 = (1 / 2 ^ 5) ^ 2 by norm_num, Real.sqrt_sq (by norm_num)]
  have hE : (2 / Real.sqrt (1 / 2 ^ 10)) ^ (measCount p - 1) * (((circuitCost p : ℝ) + 13 * measCount p * 2 ^ n) * binary64.eps) ≤ 1 / 2 ^ 24 := by
    rw [hs, h2, he]
    norm_num at h2n ⊢
    linarith
  have hE0 : 0 ≤ (2 / Real.sqrt (1 / 2 ^ 10)) ^ (measCount p - 1) * (((circuitCost p : ℝ) + 13 * measCount p * 2 ^ n) * binary64.eps) := by
    rw [hs, h2, he]
    positivity
  have key := C125_bound binary64 n (2 ^ 53) 0 (1 / 2 ^ 10) le_rfl (by norm_num) (by norm_num) p _ rfl (hE.trans (by norm_num))
  generalize (2 / Real.sqrt (1 / 2 ^ 10)) ^ (measCount p - 1) * (((circuitCost p : ℝ) + 13 * measCount p * 2 ^ n) * binary64.eps) = E at *
  refine key.trans ?_
  rw [h2, Nat.cast_pow, Nat.cast_ofNat]
  have hX : E * (2 + E) ≤ 1 / 2 ^ 24 * (2 + 1 / 2 ^ 24) := by nlinarith
  have hq : 2 ^ n * binary64.eps ≤ 2 ^ 10 / 2 ^ 53 := by
    rw [he]
    norm_num at h2n ⊢
    linarith
  generalize E * (2 + E) = X at hX ⊢
  generalize 2 ^ n * binary64.eps = Y at hq ⊢
  generalize (2 : ℝ) ^ n = Z at h2n h2p ⊢
  have hB : 2 * (X + 20 * Y + 0) + 1 / 2 ^ 53 ≤ 1 / 2 ^ 21 * (33 / 64) := by norm_num at hX hq ⊢; linarith
  have h3 := mul_le_mul_of_nonneg_left hB (show 0 ≤ Z + 1 by linarith)
  have h4 : (Z + 1) * ((1 : ℝ) / 2 ^ 21 * (33 / 64)) ≤ (2 ^ 10 + 1) * (1 / 2 ^ 21 * (33 / 64)) := mul_le_mul_of_nonneg_right (by linarith) (by norm_num)
  have h5 : 2 * Z / 2 ^ 53 ≤ 2 * 2 ^ 10 / 2 ^ 53 := div_le_div_of_nonneg_right (by linarith) (by norm_num)
  push_cast
  norm_num at h3 h4 h5 ⊢
  linarith

/-- C129 in `f64`: with triples of the draws of `rand`, at most 10 qubits and 1000 gates, the share of the runs that report `s`, `t` and `m` is `4^-n` times the probability of `m` for
one register, up to `2^-9`. -/
theorem C129_f64 (A : binary64.Arith fl) (L : StdLib binary64) (hL : L.Accurate binary64.eps) {n : ℕ} (hn : 0 < n) {p q : Prog}
    (hp : p.Takes false [List.range n]) (hq : q.Takes false [List.range n]) {out : List Reg × List ℕ} {b : LocalBuilder}
    (h : mainProg [n, n, n] (teleActs p q ++ [.measure 2]) LocalBuilder.default = .ok out b) (hn10 : b.n ≤ 10) (hc : circuitCost b.pipeline ≤ 64000)
    (c : List (List ℕ × ObjTypeP binary64)) (hm : List.Forall₂ Meant c b.pipeline) (hw : ∀ e ∈ c, e.2.Within 1)
    (d : ℕ → binary64.Fin) (hd : ∀ j, j < 2 ^ 53 → (d j).1 = (j : ℝ) / 2 ^ 53) :
    ∃ els : List (ElemP A.Num), c.mapM (elemP A L) = .ok (els.map elemOf) ∧
      (∀ rnds : ℕ → binary64.Part, ∃ t, RunsP A.prec (fun c : A.Num => c) (fun c => c) b.n rnds els
        ⟨(List.replicate (2 ^ b.n) 0).set 0 1, List.replicate (2 ^ b.n) 0, []⟩ t) ∧
      ∀ (rnds : (_root_.Fin 3 → _root_.Fin (2 ^ 53)) → ℕ → binary64.Part) (_ : ∀ js (i : _root_.Fin 3), rnds js i = some (d (js i)))
        (run : (_root_.Fin 3 → _root_.Fin (2 ^ 53)) → StateP A.Num binary64.Part)
        (_ : ∀ js, RunsP A.prec (fun c : A.Num => c) (fun c => c) b.n (rnds js) els
          ⟨(List.replicate (2 ^ b.n) 0).set 0 1, List.replicate (2 ^ b.n) 0, []⟩ (run js)) (s t m : ℕ) (_ : s < 2 ^ n) (_ : t < 2 ^ n),
        |shareOf (2 ^ 53) 3 (fun js => (run js).measurements.map Prod.fst = [s, t, m]) -
          1 / 4 ^ n * normW (actsW [List.range n] [.run p, .run q, .measure 0] [m] (ket fun _ => false))| ≤ 1 / 2 ^ 9 := by
  have hT : ∀ a ∈ teleActs p q ++ [.measure 2], a.Takes (blocks 0 [n, n, n]) := by
    intro a ha
    rcases List.mem_append.mp ha with ha | ha
    · exact teleActs_takes hn hp hq a ha
    · rw [List.mem_singleton.mp ha, blocks_tele]
      show (2 : ℕ) < 3; norm_num
  obtain ⟨b1, -⟩ := C123_bound b.n (circuitCost b.pipeline) hn10 hc
  have h3 : measCount b.pipeline = 3 := (main_facts (by simp [hn]) hT h [] (by simp)).2.2.1
  obtain ⟨els, k1, k2, k3⟩ := C129_frequency A (C88_formats 2).2.2.1.1 (C88_formats 2).2.2.1.2 L hL hn hp hq h b1 c hm hw (1 / 2 ^ 10) (by norm_num)
  refine ⟨els, k1, k2, fun rnds hr run hrun s t m hs ht => ?_⟩
  have key := (k3 (2 ^ 53) (by norm_num) 0 d (fun j hj => by rw [hd j hj, Nat.cast_pow, Nat.cast_ofNat, sub_self, abs_zero]) rnds hr run hrun [s, t, m] rfl).trans
    (joint_three b.n hn10 b.pipeline hc h3)
  rwa [teleProb, if_pos ⟨hs, ht⟩] at key

/-- one qubit: H is sent, and the receiver undoes it. Circuits, draws and runs as in the theorem exist; each outcome of the sender comes with 0 for the receiver in a quarter of the
runs, and with 1 almost never. -/
example (A : binary64.Arith fl) : ∃ (n : ℕ) (els : List (ElemP A.Num)) (rnds : (_root_.Fin 3 → _root_.Fin (2 ^ 53)) → ℕ → binary64.Part)
    (run : (_root_.Fin 3 → _root_.Fin (2 ^ 53)) → StateP A.Num binary64.Part),
    (∀ js, RunsP A.prec (fun c : A.Num => c) (fun c => c) n (rnds js) els
      ⟨(List.replicate (2 ^ n) 0).set 0 1, List.replicate (2 ^ n) 0, []⟩ (run js)) ∧
      |shareOf (2 ^ 53) 3 (fun js => (run js).measurements.map Prod.fst = [1, 0, 0]) - 1 / 4| ≤ 1 / 2 ^ 9 ∧
      shareOf (2 ^ 53) 3 (fun js => (run js).measurements.map Prod.fst = [1, 0, 1]) ≤ 1 / 2 ^ 9 := by
  have hh : (Prog.call (.named .h)).Takes false [List.range 1] := by simp [Prog.Takes, Method.Takes, List.range_succ]
  have hT : ∀ a ∈ teleActs (.call (.named .h)) (.call (.named .h)) ++ [.measure 2], a.Takes (blocks 0 [1, 1, 1]) := by
    intro a ha
    rcases List.mem_append.mp ha with ha | ha
    · exact teleActs_takes (by norm_num) hh hh a ha
    · rw [List.mem_singleton.mp ha, blocks_tele]
      show (2 : ℕ) < 3; norm_num
  obtain ⟨s, c, h1, h2, h3, h4, h5⟩ := smallRun_ok (sizes := [1, 1, 1]) (by simp) hT (by krfl) A
  obtain ⟨d, hd⟩ := draws_fit
  obtain ⟨els, -, k2, k3⟩ := C129_f64 A (stdRounded A) (C122_accurate A) (by norm_num) hh hh h1 h2 h3 c h4 h5 d hd
  let rnds : (_root_.Fin 3 → _root_.Fin (2 ^ 53)) → ℕ → binary64.Part := fun js i => if hi : i < 3 then some (d (js ⟨i, hi⟩)) else some (d 0)
  choose run hrun using fun js => k2 (rnds js)
  have hr : ∀ js (i : _root_.Fin 3), rnds js i = some (d (js i)) := fun js i => dif_pos i.2
  have hw : ∀ m, normW (actsW [List.range 1] [.run (.call (.named .h)), .run (.call (.named .h)), .measure 0] [m] (ket fun _ => false)) = if m = 0 then 1 else 0 := by
    intro m
    have hA : lift (fun x => eachW (Named.mat .h) (List.range 1) (ket x)) = eachW (Named.mat .h) (List.range 1) := wave_ext fun x => lift_ket _ _
    have hv : valQ (List.range 1) (fun _ => false) = 0 := by simp [valQ, List.range_succ]
    have e : (Prog.call (.named .h)).wave false [List.range 1] = fun x => eachW (Named.mat .h) (List.range 1) (ket x) := by
      funext x
      simp only [Prog.wave, Method.wave, Bool.false_eq_true, if_false]
    rw [acts_run, acts_run, acts_measure, actsW, e, hA, had_twice _ List.nodup_range, show ([List.range 1] : List Reg).getD 0 [] = List.range 1 from rfl, ← projL_apply, projL_ket, hv]
    by_cases hm : m = 0
    · rw [if_pos hm.symm, if_pos hm, normW_ket]
    · rw [if_neg fun h => hm h.symm, if_neg hm, normW_zero]
  refine ⟨s.n, els, rnds, run, hrun, ?_, ?_⟩
  · have := k3 rnds hr run hrun 1 0 0 (by norm_num) (by norm_num)
    rwa [hw, if_pos rfl, mul_one, pow_one] at this
  · have := k3 rnds hr run hrun 1 0 1 (by norm_num) (by norm_num)
    rw [hw, if_neg (by norm_num), mul_zero, sub_zero] at this
    exact (le_abs_self _).trans this

end Verif.Props
