import Verif.Proofs.Main
import Verif.Props.Born
import Verif.Props.AddMod

/-!
# Property C106: the results of main programs

A main program allocates registers in a new builder, runs structured programs (C105) and measures registers. What the simulator returns
for it are the outcomes, probabilities and states of quantum mechanics.
-/

namespace Verif.Props
open Complex Classical

/-- C106: the main program succeeds and returns its registers, and the handles of its measurements in order. -/
theorem C106_runs (sizes : List ℕ) (hpos : ∀ k ∈ sizes, 0 < k) (acts : List Act) (hT : ∀ a ∈ acts, a.Takes (blocks 0 sizes)) :
    ∃ s, mainProg sizes acts LocalBuilder.default = .ok (blocks 0 sizes, List.range (measures acts)) s := by
  obtain ⟨s, h, -⟩ := main_does sizes hpos acts hT
  exact ⟨s, h⟩

theorem main_facts {sizes : List ℕ} (hpos : ∀ k ∈ sizes, 0 < k) {acts : List Act} (hT : ∀ a ∈ acts, a.Takes (blocks 0 sizes)) {out : List Reg × List ℕ}
    {s : LocalBuilder} (h : mainProg sizes acts LocalBuilder.default = .ok out s) (it : List (Reg × ℕ)) (hi : ∀ p ∈ it, p.1 ∈ blocks 0 sizes) :
    (∀ p ∈ it, ∀ q ∈ p.1, q < s.n) ∧ (∀ e ∈ s.pipeline, StepOK s.n e) ∧ measCount s.pipeline = measures acts ∧
      ∀ ms, ms.length = measures acts → branchW rotAngle s.pipeline ms (ket (initAsg it)) = actsW (blocks 0 sizes) acts ms (ket (initAsg it)) ∧
        reportW rotAngle s.pipeline ms (ket (initAsg it)) = actsP (blocks 0 sizes) acts ms (ket (initAsg it)) := by
  obtain ⟨s', e, d⟩ := main_does sizes hpos acts hT
  rw [h] at e
  cases e
  obtain ⟨seg, h1, h2, h3, h4⟩ := d.seg
  have h1 : s.pipeline = seg := h1
  have hq : ∀ p ∈ it, ∀ q ∈ p.1, q < sizes.sum := fun p hp q hq => by
    have : q ∈ (blocks 0 sizes).flatten := List.mem_flatten.mpr ⟨_, hi p hp, hq⟩
    rw [blocks_eq, ranges_flatten] at this
    simpa using this
  refine ⟨fun p hp q hq' => lt_of_lt_of_le (hq p hp q hq') d.n_le, by rw [h1]; exact h2, by rw [h1, h3], fun ms hm => ?_⟩
  rw [h1]
  refine h4 ms hm _ (On.ket ?_)
  rintro q (hq' | hq')
  · cases hq'
  · unfold initAsg
    refine decide_eq_false ?_
    rintro ⟨p, hp, k, hk, -⟩
    have := hq p hp q (List.mem_of_getElem? hk)
    exact absurd hq' (by simpa using this)

/-- C106: the Born rule for main programs: the probability that the measurements give the outcomes `ms` is the squared length of what the
programs and these outcomes leave of the initial state. -/
theorem C106_born {sizes : List ℕ} (hpos : ∀ k ∈ sizes, 0 < k) {acts : List Act} (hT : ∀ a ∈ acts, a.Takes (blocks 0 sizes)) {out : List Reg × List ℕ}
    {s : LocalBuilder} (h : mainProg sizes acts LocalBuilder.default = .ok out s) (it : List (Reg × ℕ)) (hi : ∀ p ∈ it, p.1 ∈ blocks 0 sizes)
    (ms : List ℕ) (hm : ms.length = measures acts) :
    outcomeProb s it ms = ENNReal.ofReal (normW (actsW (blocks 0 sizes) acts ms (ket (initAsg it)))) := by
  obtain ⟨h1, h2, h3, h4⟩ := main_facts hpos hT h it hi
  rw [C76_born_rule s it h1 h2 ms (by rw [hm, h3]), (h4 ms hm).1]

/-- C106: whatever numbers in (0,1) are drawn, the calculation succeeds; the handles fetch outcomes `ms` of positive probability, and the
probabilities of each given the earlier ones; the state returned is what is left, scaled to length 1. -/
theorem C106_state {sizes : List ℕ} (hpos : ∀ k ∈ sizes, 0 < k) {acts : List Act} (hT : ∀ a ∈ acts, a.Takes (blocks 0 sizes)) {out : List Reg × List ℕ}
    {s : LocalBuilder} (h : mainProg sizes acts LocalBuilder.default = .ok out s) (it : List (Reg × ℕ)) (hi : ∀ p ∈ it, p.1 ∈ blocks 0 sizes)
    (rnds : ℕ → ℝ) (hr : ∀ k, 0 < rnds k ∧ rnds k < 1) :
    ∃ v l ms, s.calculateStateWithInit it rnds = some (v, l) ∧ l.length = measures acts ∧ ms.length = measures acts ∧
      (∀ (j : ℕ) (hj : j < ms.length),
        ∃ pr, (actsP (blocks 0 sizes) acts ms (ket (initAsg it)))[j]? = some pr ∧ getMeasurement l j = some (ms[j], pr)) ∧
      0 < normW (actsW (blocks 0 sizes) acts ms (ket (initAsg it))) ∧
      Rep s.n v (unitW (actsW (blocks 0 sizes) acts ms (ket (initAsg it)))) := by
  obtain ⟨h1, h2, h3, h4⟩ := main_facts hpos hT h it hi
  obtain ⟨v, l, ms, a1, a2, a3, a4, a5, a6⟩ := C76_state s it h1 h2 rnds hr
  rw [h3] at a2 a3
  obtain ⟨k1, k2⟩ := h4 ms a3
  rw [k1] at a5 a6
  rw [k2] at a4
  exact ⟨v, l, ms, a1, a2, a3, a4, a5, a6⟩

/-- C106: without measurements the state returned is the one the programs make, whatever is drawn. -/
theorem C106_unmeasured {sizes : List ℕ} (hpos : ∀ k ∈ sizes, 0 < k) (ps : List Prog) (hT : ∀ p ∈ ps, p.Takes false (blocks 0 sizes)) {out : List Reg × List ℕ}
    {s : LocalBuilder} (h : mainProg sizes (ps.map .run) LocalBuilder.default = .ok out s) (it : List (Reg × ℕ)) (hi : ∀ p ∈ it, p.1 ∈ blocks 0 sizes)
    (rnds : ℕ → ℝ) :
    ∃ v, s.calculateStateWithInit it rnds = some (v, []) ∧
      Rep s.n v (ps.foldl (fun ψ p => Finsupp.linearCombination ℂ (p.wave false (blocks 0 sizes)) ψ) (ket (initAsg it))) := by
  have hT' : ∀ a ∈ ps.map Act.run, a.Takes (blocks 0 sizes) := by
    intro a ha
    obtain ⟨p, hp, rfl⟩ := List.mem_map.mp ha
    exact hT p hp
  have hm : ∀ ps : List Prog, measures (ps.map .run) = 0 := fun ps => by induction ps with | nil => rfl | cons p ps ih => exact ih
  have hw : ∀ (ps : List Prog) (ψ : Wave), actsW (blocks 0 sizes) (ps.map .run) [] ψ =
      ps.foldl (fun ψ p => Finsupp.linearCombination ℂ (p.wave false (blocks 0 sizes)) ψ) ψ := fun ps => by
    induction ps with
    | nil => intro ψ; rfl
    | cons p ps ih => intro ψ; exact ih _
  obtain ⟨h1, h2, h3, h4⟩ := main_facts hpos hT' h it hi
  have hu : ∀ e ∈ s.pipeline, SegU s.n e := fun e he => by
    rcases h2 e he with h | ⟨h, -⟩
    · exact h
    · have : 0 < measCount s.pipeline := List.countP_pos_iff.mpr ⟨e, he, by simp [isMeas, h]⟩
      rw [h3, hm] at this
      omega
  obtain ⟨v, c1, c2⟩ := calculate_unitary s it h1 (fun e he => (hu e he).1) rnds
  refine ⟨v, c1, ?_⟩
  rw [← hw, ← (h4 [] (by rw [hm]; rfl)).1, branchW_units rotAngle s.pipeline fun e he => ?_]
  · exact c2
  · obtain ⟨⟨-, -, u, hu, -⟩, -⟩ := hu e he
    exact ⟨u, hu⟩

/-! ## example: a Bell pair, measured -/

/-- `program! { h(a); control x(a, b) }` -/
def bellProg : Prog := .prog (.plain (.call (.named .h)) [[(0, none)]] (.control none (.call (.named .x)) [(0, none)] [[(1, none)]] .nil))

theorem bell_takes : ∀ a ∈ [Act.run bellProg, .measure 0, .measure 1], a.Takes (blocks 0 [1, 1]) := by
  have hb : bellProg.Takes false [[0], [1]] := by
    simp only [bellProg, Prog.Takes, Lines.Takes]
    exact ⟨by simp, ⟨by simp [groupPos, selPos], by simp [groupPos, selPos], by simp, by unfold HasPos; simp [groupPos, selPos]⟩, ⟨by decide, by simp⟩,
      ⟨by simp [groupPos, selPos], by simp [groupPos, selPos], by simp, by unfold HasPos; simp [groupPos, selPos]⟩, ⟨by decide, fun _ => rfl⟩, trivial⟩
  intro a ha
  simp only [List.mem_cons, List.not_mem_nil, or_false] at ha
  rcases ha with rfl | rfl | rfl
  · exact hb
  · exact Nat.zero_lt_succ _
  · exact Nat.succ_lt_succ (Nat.zero_lt_succ _)

theorem bell_wave : bellProg.wave false [[0], [1]] (fun _ => false) =
    ((1 / Real.sqrt 2 : ℝ) : ℂ) • ket (fun _ => false) + ((1 / Real.sqrt 2 : ℝ) : ℂ) • ket (ones [0, 1]) := by
  have f1 : List.map (groupReg [[0], [1]]) [[(0, none)]] = [[0]] := rfl
  have f2 : List.map (groupReg [[0], [1]]) [[(1, none)]] = [[1]] := rfl
  have f3 : groupReg [[0], [1]] [(0, none)] = [0] := rfl
  have s0 : setQ 0 false (fun _ => false) = fun _ => false := by funext q; simp [setQ]
  have s1 : setQ 1 true (setQ 0 true (fun _ => false)) = ones [0, 1] := by
    funext q
    by_cases h0 : q = 0
    · subst h0; rfl
    · by_cases h1 : q = 1
      · subst h1; rfl
      · simp [setQ, ones, h0, h1]
  simp only [bellProg, Prog.wave, Lines.wave, lift_eq, f1, f2, Method.wave, eachW_single]
  rw [gate1_ket, map_add, map_smul, map_smul, lift_ket, lift_ket]
  rw [if_neg (show ¬ Holds none (groupReg [[0], [1]] [(0, none)]) (setQ 0 false fun _ => false) from by
      rw [f3]; exact fun h => by simpa [setQ] using h 0 (by simp)),
    if_pos (show Holds none (groupReg [[0], [1]] [(0, none)]) (setQ 0 true fun _ => false) from by
      rw [f3]; exact fun q hq => by simp at hq; subst hq; rfl)]
  rw [show gateW [1] (if True then Named.condMat .x else Named.mat .x) (ket (setQ 0 true fun _ => false)) = ket (ones [0, 1]) from ?_]
  · rw [show (fun x => ket x) = ket from rfl, lift_ket, lift_ket, s0]
    simp [Named.mat, mat2]
  · rw [gate1_ket, s1]
    simp [Named.condMat, Named.mat, mat2, setQ]

/-- both measurements give 0 with probability 1/2; different outcomes have probability 0 -/
example : ∃ s, mainProg [1, 1] [.run bellProg, .measure 0, .measure 1] LocalBuilder.default = .ok ([[0], [1]], [0, 1]) s ∧
    outcomeProb s [] [0, 0] = ENNReal.ofReal (1 / 2) ∧ outcomeProb s [] [0, 1] = 0 := by
  obtain ⟨s, h⟩ := C106_runs [1, 1] (by simp) _ bell_takes
  have hi : initAsg [] = fun _ => false := by funext q; simp [initAsg]
  have v0 : On {y | valQ [0] y = 0} (((1 / Real.sqrt 2 : ℝ) : ℂ) • ket (fun _ => false)) := On.smul (On.ket (show valQ _ _ = 0 from rfl)) _
  have hw : ∀ m, actsW [[0], [1]] [.run bellProg, .measure 0, .measure 1] [0, m] (ket fun _ => false) =
      projW [1] m (((1 / Real.sqrt 2 : ℝ) : ℂ) • ket (fun _ => false)) := by
    intro m
    have e : projW [0] 0 (((1 / Real.sqrt 2 : ℝ) : ℂ) • ket (fun _ => false) + ((1 / Real.sqrt 2 : ℝ) : ℂ) • ket (ones [0, 1])) =
        ((1 / Real.sqrt 2 : ℝ) : ℂ) • ket (fun _ => false) := by
      have a1 := projW_on v0
      have a2 : projW [0] 0 (((1 / Real.sqrt 2 : ℝ) : ℂ) • ket (ones [0, 1])) = 0 :=
        projW_off (k := 1) ((On.ket (show valQ [0] (ones [0, 1]) = 1 from rfl)).smul _) (by simp)
      unfold projW at a1 a2 ⊢
      rw [Finsupp.filter_add, a1, a2, add_zero]
    simp only [actsW, lift_eq]
    rw [lift_ket, bell_wave]
    rw [show ([[0], [1]] : List Reg).getD 0 [] = [0] from rfl, e]
    rfl
  have hon : On {y | valQ [1] y = 0} (((1 / Real.sqrt 2 : ℝ) : ℂ) • ket (fun _ => false)) := On.smul (On.ket (show valQ _ _ = 0 from rfl)) _
  refine ⟨s, h, ?_, ?_⟩
  · have := C106_born (by simp) bell_takes h [] (by simp) [0, 0] rfl
    rw [this, hi]
    rw [show blocks 0 [1, 1] = [[0], [1]] from rfl, hw, projW_on hon, normW_smul, normW_ket]
    congr 1
    rw [normSq_ofReal, mul_one, ← sq, div_pow, Real.sq_sqrt (by norm_num), one_pow]
  · have := C106_born (by simp) bell_takes h [] (by simp) [0, 1] rfl
    rw [this, hi]
    rw [show blocks 0 [1, 1] = [[0], [1]] from rfl, hw, projW_off hon (by simp), normW_zero, ENNReal.ofReal_zero]

end Verif.Props
