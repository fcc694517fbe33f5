import Verif.Proofs.FloatJoint2
import Verif.Props.FloatState

/-!
# Property C125: joint frequencies of several measurements, in floating point arithmetic

C123 speaks of one measurement at the end. In a main program with any number of measurements anywhere, each one makes its own draw, scales the state and passes it on to
the next gates. Over all sequences of evenly spaced draws, the share of the runs that report a given list of outcomes is the probability quantum mechanics gives for it,
up to a bound.
-/

namespace Verif.Props
open Verif MatrixOp Format.Arith Finset

variable {f : Format} {fl : ℝ → ℝ}

/-- C125, circuits of gates and measurements in any order, for every initial value: every sequence of draws has a run without a panic, also where a draw near a boundary
selected an outcome whose probability is computed as zero. Over all sequences of draws near `0, 1/N, 2/N, …` the share of the runs that report the outcomes `ms` is the
squared length of the branch of `ms`, up to `jointBound`, for any threshold `θ` for rare outcomes. -/
theorem C125_joint (A : f.Arith fl) (hf : 10 ≤ f.p) (he : f.emin + 2 * f.p + 4 ≤ 0) (b : LocalBuilder) (hN : 2 ^ b.n * f.eps ≤ 1 / 64)
    (it : List (Reg × ℕ)) (h : ∀ p ∈ it, ∀ q ∈ p.1, q < b.n) (hp : ∀ e ∈ b.pipeline, StepOK b.n e)
    (els : List (ElemP A.Num)) (hels : List.Forall₂ (ElemAs A) els b.pipeline) (θ : ℝ) (hθ : 0 < θ) :
    ∃ x, initialIndex b.n it = some x ∧
      JointFrequencies A b.n els x (measCount b.pipeline) (fun ms => normW (branchW rotAngle b.pipeline ms (ket (initAsg it))))
        (fun N τ => jointBound f b.n N τ θ b.pipeline 0) := by
  classical
  obtain ⟨i, i1, i2, i3⟩ := initialIndex_eq b.n it h
  have R := A.limits (by omega)
  have hl : ∀ {K : Type} [Zero K] [One K], ((List.replicate (2 ^ b.n) (0 : K)).set i 1).length = 2 ^ b.n := by simp
  refine ⟨i, i1, fun rnds => runs_total A b.n rnds b.pipeline hp els hels _ hl (by simp), ?_⟩
  intro N hN0 τ d hd rnds hr run hrun ms hms
  have hlow : On (Low b.n) (ket (initAsg it)) := by rw [← i3]; exact On.ket (asg_low _ _)
  have key := joint_err A hf he b.n hN N hN0 τ d hd θ hθ b.pipeline els hels hp _ rfl ms hms 0 rnds (fun js i => by rw [zero_add]; exact hr js i)
    (fun _ => ⟨(List.replicate (2 ^ b.n) 0).set i 1, List.replicate (2 ^ b.n) 0, []⟩) run (fun _ => rfl) hrun (ket (initAsg it)) hlow (normW_ket _) 0 le_rfl
    (fun _ js => ⟨hl, by simp, by
      intro a ha
      rcases List.mem_or_eq_of_mem_set ha with ha | rfl
      · rw [List.mem_replicate] at ha
        rw [ha.2]; exact R.fin_zero
      · exact R.fin_one, by
      rw [nrm_congr b.n _ (fun _ => 0) (fun r hr => by
        show vals A.val ((List.replicate (2 ^ b.n) (0 : A.Num)).set i 1) r - ket (initAsg it) (asg b.n r) = 0
        rw [vals_initial A.val R.val_zero R.val_one b.n i r hr, ← i3]
        unfold ket
        rw [Finsupp.single_apply]
        by_cases hri : r = i
        · subst hri; simp
        · rw [if_neg hri, if_neg fun e => hri (asg_inj b.n i r i2 hr e).symm, sub_zero])]
      simp [nrm]⟩)
  rw [shareOf_congr N _ fun js => by rw [List.drop_zero]] at key
  exact key

/-- C125: main programs. Every list of acts, structured programs and measurements in any order; every initial value; every floating point circuit `c` that the pipeline is
meant by. -/
theorem C125_programs (A : f.Arith fl) (hf : 10 ≤ f.p) (he : f.emin + 2 * f.p + 4 ≤ 0) (L : StdLib f) (hL : L.Accurate f.eps) {sizes : List ℕ}
    (hpos : ∀ k ∈ sizes, 0 < k) {acts : List Act} (hT : ∀ a ∈ acts, a.Takes (blocks 0 sizes))
    {out : List Reg × List ℕ} {s : LocalBuilder} (h : mainProg sizes acts LocalBuilder.default = .ok out s)
    (it : List (Reg × ℕ)) (hit : ∀ p ∈ it, p.1 ∈ blocks 0 sizes) (hN : 2 ^ s.n * f.eps ≤ 1 / 64) (c : List (List ℕ × ObjTypeP f))
    (hm : List.Forall₂ Meant c s.pipeline) (hw : ∀ e ∈ c, e.2.Within 1) (θ : ℝ) (hθ : 0 < θ) :
    ∃ (els : List (ElemP A.Num)) (x : ℕ), c.mapM (elemP A L) = .ok (els.map elemOf) ∧ initialIndex s.n it = some x ∧
      JointFrequencies A s.n els x (measures acts) (fun ms => normW (actsW (blocks 0 sizes) acts ms (ket (initAsg it))))
        (fun N τ => jointBound f s.n N τ θ s.pipeline 0) := by
  obtain ⟨g1, g2, g3, g4⟩ := main_facts hpos hT h it hit
  obtain ⟨els, e1, e2⟩ := C122_measured A (by omega) L hL s.n c s.pipeline hm g2 hw
  obtain ⟨x, x1, x2, x3⟩ := C125_joint A hf he s hN it g1 g2 els e2 θ hθ
  rw [g3] at x3
  refine ⟨els, x, e1, x1, x2, fun N hN0 τ d hd rnds hr run hrun ms hms => ?_⟩
  have := x3 N hN0 τ d hd rnds hr run hrun ms hms
  simp only at this ⊢
  rwa [(g4 ms hms).1] at this

/-- C125, the bound in closed form: with `J` measurements and `E = (2/√θ)^(J-1)·(cost + 13·J·2^n)·2^-p` at most one, it is at most `J` times the loss of one measurement
with the error `E`, plus the threshold. -/
theorem C125_bound (f : Format) (n N : ℕ) (τ θ : ℝ) (hτ : 0 ≤ τ) (hθ : 0 < θ) (hθ1 : θ ≤ 1) (p : Pipeline) (E : ℝ)
    (hE : (2 / Real.sqrt θ) ^ (measCount p - 1) * (((circuitCost p : ℝ) + 13 * measCount p * 2 ^ n) * f.eps) = E) (hE1 : E ≤ 1) :
    jointBound f n N τ θ p 0 ≤
      measCount p * ((2 ^ n + 1) * (2 * (E * (2 + E) + 20 * (2 ^ n * f.eps) + τ) + 1 / N) + 2 * 2 ^ n / N) + θ := by
  have := jointBound_closed f n N τ θ hτ hθ hθ1 p 0 le_rfl (by rw [zero_add, hE]; exact hE1)
  rw [zero_add, hE] at this
  exact this

/-- C125 in numbers: in `f64`, with pairs of the `2 ^ 53` draws of `rand::random::<f64>()`, at most 10 qubits, circuits of at most 1000 gates and two measurements, no joint
frequency is off by more than `2^-13`. -/
theorem C125_f64 (n : ℕ) (hn : n ≤ 10) (p : Pipeline) (hg : circuitCost p ≤ 64000) (h2 : measCount p = 2) :
    jointBound binary64 n (2 ^ 53) 0 (1 / 2 ^ 14) p 0 ≤ 1 / 2 ^ 13 := by
  have he : binary64.eps = (2 : ℝ)⁻¹ ^ 53 := rfl
  have hG : (circuitCost p : ℝ) ≤ 64000 := by exact_mod_cast hg
  have hG0 : (0 : ℝ) ≤ circuitCost p := by positivity
  have h2n : (2 : ℝ) ^ n ≤ 2 ^ 10 := pow_le_pow_right₀ (by norm_num) hn
  have h2p : (0 : ℝ) < 2 ^ n := by positivity
  have hs : Real.sqrt (1 / 2 ^ 14) = 1 / 2 ^ 7 := by
    rw [show (1 : ℝ) / 2 ^ 14 = (1 / 2 ^ 7) ^ 2 by norm_num, Real.sqrt_sq (by norm_num)]
  have hE : (2 / Real.sqrt (1 / 2 ^ 14)) ^ (measCount p - 1) * (((circuitCost p : ℝ) + 13 * measCount p * 2 ^ n) * binary64.eps) ≤ 1 / 2 ^ 28 := by
    rw [hs, h2, he]
    norm_num at h2n ⊢
    linarith
  have hE0 : 0 ≤ (2 / Real.sqrt (1 / 2 ^ 14)) ^ (measCount p - 1) * (((circuitCost p : ℝ) + 13 * measCount p * 2 ^ n) * binary64.eps) := by
    rw [hs, h2, he]
    positivity
  have key := C125_bound binary64 n (2 ^ 53) 0 (1 / 2 ^ 14) le_rfl (by norm_num) (by norm_num) p _ rfl (hE.trans (by norm_num))
  generalize (2 / Real.sqrt (1 / 2 ^ 14)) ^ (measCount p - 1) * (((circuitCost p : ℝ) + 13 * measCount p * 2 ^ n) * binary64.eps) = E at *
  refine key.trans ?_
  rw [h2, Nat.cast_pow, Nat.cast_ofNat]
  have hX : E * (2 + E) ≤ 1 / 2 ^ 28 * (2 + 1 / 2 ^ 28) := by nlinarith
  have hq : 2 ^ n * binary64.eps ≤ 2 ^ 10 / 2 ^ 53 := by
    rw [he]
    norm_num at h2n ⊢
    linarith
  generalize E * (2 + E) = X at hX ⊢
  generalize 2 ^ n * binary64.eps = Y at hq ⊢
  generalize (2 : ℝ) ^ n = Z at h2n h2p ⊢
  have hB : 2 * (X + 20 * Y + 0) + 1 / 2 ^ 53 ≤ 1 / 2 ^ 25 * (33 / 64) := by norm_num at hX hq ⊢; linarith
  have h3 := mul_le_mul_of_nonneg_left hB (show 0 ≤ Z + 1 by linarith)
  have h4 : (Z + 1) * ((1 : ℝ) / 2 ^ 25 * (33 / 64)) ≤ (2 ^ 10 + 1) * (1 / 2 ^ 25 * (33 / 64)) := mul_le_mul_of_nonneg_right (by linarith) (by norm_num)
  have h5 : 2 * Z / 2 ^ 53 ≤ 2 * 2 ^ 10 / 2 ^ 53 := div_le_div_of_nonneg_right (by linarith) (by norm_num)
  push_cast
  norm_num at h3 h4 h5 ⊢
  linarith

/-- C125: a register that is measured twice. Whatever the programs before, two different outcomes are reported for at most the bound of all pairs of draws. -/
theorem C125_again (A : f.Arith fl) (hf : 10 ≤ f.p) (he : f.emin + 2 * f.p + 4 ≤ 0) (L : StdLib f) (hL : L.Accurate f.eps) {sizes : List ℕ}
    (hpos : ∀ k ∈ sizes, 0 < k) (ps : List Prog) (hT : ∀ p ∈ ps, p.Takes false (blocks 0 sizes)) (i : ℕ) (hi : i < (blocks 0 sizes).length)
    {out : List Reg × List ℕ} {s : LocalBuilder} (h : mainProg sizes (ps.map .run ++ [.measure i, .measure i]) LocalBuilder.default = .ok out s)
    (it : List (Reg × ℕ)) (hit : ∀ p ∈ it, p.1 ∈ blocks 0 sizes) (hN : 2 ^ s.n * f.eps ≤ 1 / 64) (c : List (List ℕ × ObjTypeP f))
    (hm : List.Forall₂ Meant c s.pipeline) (hw : ∀ e ∈ c, e.2.Within 1) (θ : ℝ) (hθ : 0 < θ) :
    ∃ (els : List (ElemP A.Num)) (x : ℕ), c.mapM (elemP A L) = .ok (els.map elemOf) ∧ initialIndex s.n it = some x ∧
      ∀ (N : ℕ) (_ : 0 < N) (τ : ℝ) (d : ℕ → f.Fin) (_ : ∀ j, j < N → |(d j).1 - (j : ℝ) / N| ≤ τ) (rnds : (Fin 2 → Fin N) → ℕ → f.Part)
        (_ : ∀ js (i : Fin 2), rnds js i = some (d (js i))) (run : (Fin 2 → Fin N) → StateP A.Num f.Part)
        (_ : ∀ js, RunsP A.prec (fun c : A.Num => c) (fun c => c) s.n (rnds js) els
          ⟨(List.replicate (2 ^ s.n) 0).set x 1, List.replicate (2 ^ s.n) 0, []⟩ (run js)) (m m' : ℕ) (_ : m ≠ m'),
        shareOf N 2 (fun js => (run js).measurements.map Prod.fst = [m, m']) ≤ jointBound f s.n N τ θ s.pipeline 0 := by
  have hT' : ∀ a ∈ ps.map Act.run ++ [.measure i, .measure i], a.Takes (blocks 0 sizes) := by
    intro a ha
    simp only [List.mem_append, List.mem_cons, List.not_mem_nil, or_false, or_self] at ha
    rcases ha with ha | rfl
    · exact runs_takes hT a ha
    · exact hi
  have h2 : ∀ ps : List Prog, measures (ps.map Act.run ++ [.measure i, .measure i]) = 2 := fun ps => by induction ps with | nil => rfl | cons p ps ih => exact ih
  obtain ⟨els, x, k1, k2, -, k3⟩ := C125_programs A hf he L hL hpos hT' h it hit hN c hm hw θ hθ
  rw [h2] at k3
  refine ⟨els, x, k1, k2, fun N hN0 τ d hd rnds hr run hrun m m' hne => ?_⟩
  have key := k3 N hN0 τ d hd rnds hr run hrun [m, m'] rfl
  have e : ∀ (ps : List Prog) (ψ : Wave), actsW (blocks 0 sizes) (ps.map Act.run ++ [.measure i, .measure i]) [m, m'] ψ = 0 := by
    intro ps
    induction ps with
    | nil =>
      intro ψ
      ext y
      show projW _ m' (projW _ m ψ) y = 0
      rw [projW_apply, projW_apply]
      split
      · rename_i h
        rw [if_neg (by rw [h]; exact hne.symm)]
      · rfl
    | cons p ps ih => intro ψ; exact ih _
  simp only [e, normW_zero, sub_zero] at key
  exact (le_abs_self _).trans key

/-! ## examples -/

/-- the two qubits of a Bell pair, measured one after the other in `f64`: over all pairs of draws, both are 0 in half of the runs up to `2^-13`, and different in at most
`2^-13` of them -/
example (A : binary64.Arith fl) (d : ℕ → binary64.Fin) (hd : ∀ j, j < 2 ^ 53 → (d j).1 = (j : ℝ) / 2 ^ 53) :
    ∃ (n : ℕ) (els : List (ElemP A.Num)), (∀ rnds : ℕ → binary64.Part, ∃ t, RunsP A.prec (fun c : A.Num => c) (fun c => c) n rnds els
        ⟨(List.replicate (2 ^ n) 0).set 0 1, List.replicate (2 ^ n) 0, []⟩ t) ∧
      ∀ (rnds : (Fin 2 → Fin (2 ^ 53)) → ℕ → binary64.Part) (_ : ∀ js (i : Fin 2), rnds js i = some (d (js i)))
        (run : (Fin 2 → Fin (2 ^ 53)) → StateP A.Num binary64.Part)
        (_ : ∀ js, RunsP A.prec (fun c : A.Num => c) (fun c => c) n (rnds js) els
          ⟨(List.replicate (2 ^ n) 0).set 0 1, List.replicate (2 ^ n) 0, []⟩ (run js)),
        |shareOf (2 ^ 53) 2 (fun js => (run js).measurements.map Prod.fst = [0, 0]) - 1 / 2| ≤ 1 / 2 ^ 13 ∧
        shareOf (2 ^ 53) 2 (fun js => (run js).measurements.map Prod.fst = [0, 1]) ≤ 1 / 2 ^ 13 := by
  obtain ⟨s, c, h1, h2, h3, h4, h5⟩ := smallRun_ok (sizes := [1, 1]) (by simp) bell_takes (by krfl) A
  obtain ⟨b1, -⟩ := C123_bound s.n (circuitCost s.pipeline) h2 h3
  obtain ⟨els, x, -, k2, k3, k4⟩ := C125_programs A (C88_formats 2).2.2.1.1 (C88_formats 2).2.2.1.2 (stdRounded A) (C122_accurate A) (by simp) bell_takes h1 [] (by simp)
    b1 c h4 h5 (1 / 2 ^ 14) (by norm_num)
  obtain rfl : 0 = x := Option.some.inj k2
  obtain ⟨-, -, g3, -⟩ := main_facts (by simp) bell_takes h1 [] (by simp)
  have hB := C125_f64 s.n h2 s.pipeline h3 (by rw [g3]; rfl)
  refine ⟨s.n, els, k3, fun rnds hr run hrun => ?_⟩
  have key := fun ms hms => (k4 (2 ^ 53) (by norm_num) 0 d (fun j hj => by rw [hd j hj, Nat.cast_pow, Nat.cast_ofNat, sub_self, abs_zero]) rnds hr run hrun ms hms).trans hB
  have v0 : On {y | valQ [0] y = 0} (((1 / Real.sqrt 2 : ℝ) : ℂ) • ket (fun _ => false)) := On.smul (On.ket (show valQ _ _ = 0 from rfl)) _
  have hw : ∀ m, actsW (blocks 0 [1, 1]) [.run bellProg, .measure 0, .measure 1] [0, m] (ket (initAsg [])) =
      projW [1] m (((1 / Real.sqrt 2 : ℝ) : ℂ) • ket (fun _ => false)) := by
    intro m
    have e : projW [0] 0 (((1 / Real.sqrt 2 : ℝ) : ℂ) • ket (fun _ => false) + ((1 / Real.sqrt 2 : ℝ) : ℂ) • ket (ones [0, 1])) =
        ((1 / Real.sqrt 2 : ℝ) : ℂ) • ket (fun _ => false) := by
      have a1 := projW_on v0
      have a2 : projW [0] 0 (((1 / Real.sqrt 2 : ℝ) : ℂ) • ket (ones [0, 1])) = 0 :=
        projW_off (k := 1) ((On.ket (show valQ [0] (ones [0, 1]) = 1 from rfl)).smul _) (by simp)
      unfold projW at a1 a2 ⊢
      rw [Finsupp.filter_add, a1, a2, add_zero]
    rw [initAsg_nil, show blocks 0 [1, 1] = [[0], [1]] from rfl]
    simp only [actsW, lift_eq]
    rw [lift_ket, bell_wave]
    rw [show ([[0], [1]] : List Reg).getD 0 [] = [0] from rfl, e]
    rfl
  have hon : On {y | valQ [1] y = 0} (((1 / Real.sqrt 2 : ℝ) : ℂ) • ket (fun _ => false)) := On.smul (On.ket (show valQ _ _ = 0 from rfl)) _
  have p0 : normW (actsW (blocks 0 [1, 1]) [.run bellProg, .measure 0, .measure 1] [0, 0] (ket (initAsg []))) = 1 / 2 := by
    rw [hw, projW_on hon, normW_smul, normW_ket, Complex.normSq_ofReal, mul_one, ← sq, div_pow, Real.sq_sqrt (by norm_num), one_pow]
  have p1 : normW (actsW (blocks 0 [1, 1]) [.run bellProg, .measure 0, .measure 1] [0, 1] (ket (initAsg []))) = 0 := by
    rw [hw, projW_off hon (by simp), normW_zero]
  have k0 := key [0, 0] rfl
  have k1 := key [0, 1] rfl
  simp only [p0] at k0
  simp only [p1, sub_zero] at k1
  exact ⟨k0, (le_abs_self _).trans k1⟩

end Verif.Props
