import Verif.Props.Client
import Verif.Proofs.Handle

/-!
# Property C102: measurement handles in all programs

C42 is about sequences of calls on a builder without conditions. Here the program is any program of C98 whose own circuit objects
do not measure (with a subcircuit that measures the handles are wrong, see C42).
-/

namespace Verif.Props
open Rooted

/-- C102: the number of handles given out is the number of measurements in the circuit. -/
theorem C102_counts {k : ℕ} {s : NB k} {live : List Reg} (h : Session NotMeas k s live) :
    (root s).measurements = measCount (root s).pipeline := by
  obtain ⟨-, seg, h2, h3⟩ := Onward.extends .start h
  have h2 : (root s).pipeline = [] ++ seg := h2
  have h3 : (root s).measurements = 0 + measCount seg := h3
  rw [h2, h3, Nat.zero_add, List.nil_append]

theorem measured {s s1 : LocalBuilder} {live rest : List Reg} {r r1 : Reg} {id : ℕ} {o : MObj} (h : Session NotMeas 0 s live)
    (hp : live.Perm (r :: rest)) (m : LocalMethod)
    (hm : m.run [r] s = .ok [r1] s1) (h1 : r1 = r) (h2 : s1.pipeline = s.pipeline ++ [(r, ⟨r.length, .meas o⟩)]) (hid : id = s.measurements)
    {k : ℕ} {s2 : NB k} {live2 : List Reg} (hl : Onward NotMeas 0 s1 (r1 :: rest) k s2 live2) :
    r.Nodup ∧ (∀ q ∈ r, q < (root s2).n) ∧ id = measCount s.pipeline ∧
      ∃ seg, (root s2).pipeline = s.pipeline ++ (r, ⟨r.length, .meas o⟩) :: seg := by
  have hs1 : Session NotMeas 0 s1 ([r1] ++ rest) := .ok (k := 0) h (.onLocal m) hp hm
  obtain ⟨hn, seg, g1, -⟩ := Onward.extends (k₀ := 0) (s₀ := s1) hs1 hl
  have hn : s1.n ≤ (root s2).n := hn
  have g1 : (root s2).pipeline = s1.pipeline ++ seg := g1
  have own : Own s1 (r1 ++ rest.flatten) := hs1.sound.own
  subst h1
  refine ⟨(List.nodup_append.mp own.left).1, fun q hq => Nat.lt_of_lt_of_le (own.lt q (by simp [hq])) hn, ?_, seg, ?_⟩
  · rw [hid]; exact C102_counts h
  · rw [g1, h2, List.append_assoc, List.singleton_append]

/-- C102: in any program, the handle returned by `measure` fetches, whatever the program does afterwards, what that very
measurement produced: the outcome drawn (with the `id`-th random number) from the state `w` computed for the circuit as it was
before the call, together with the Born probability of that outcome. Used as a handle of the other kind the number would be refused. -/
theorem C102_measure {s s1 : LocalBuilder} {live rest : List Reg} {r r1 : Reg} {id : ℕ} (h : Session NotMeas 0 s live)
    (hp : live.Perm (r :: rest)) (hm : LocalBuilder.measure r s = .ok (r1, id) s1) {k : ℕ} {s2 : NB k} {live2 : List Reg}
    (hl : Onward NotMeas 0 s1 (r1 :: rest) k s2 live2) (it : List (Reg × ℕ)) (rnds : ℕ → ℝ) (v : List ℂ)
    (ms : List MeasResult) (hc : (root s2).calculateStateWithInit it rnds = some (v, ms)) :
    ∃ w ms0 val, { root s2 with pipeline := s.pipeline }.calculateStateWithInit it rnds = some (w, ms0) ∧
      softMeasure (root s2).n r w none (rnds id) = some val ∧
      getMeasurement ms id = some (val, bornProb (root s2).n r val (ampAt w 0)) ∧ getStochasticMeasurement ms id = none := by
  have hm' : LocalMethod.measure.run [r] s = .ok [r1] s1 := by cases hm; rfl
  obtain ⟨h1, h2, rfl, seg, h3⟩ := measured (o := .measurement) (id := id) h hp .measure hm' (by cases hm; rfl) (by cases hm; rfl)
    (by cases hm; rfl) hl
  exact handle_measure h1 h2 h3 hc

/-- C102 for `measure_stochastic`: the handle fetches the Born probabilities of all outcomes in the state `w` computed for the
circuit as it was before the call. -/
theorem C102_measure_stochastic {s s1 : LocalBuilder} {live rest : List Reg} {r r1 : Reg} {id : ℕ} (h : Session NotMeas 0 s live)
    (hp : live.Perm (r :: rest)) (hm : LocalBuilder.measureStochastic r s = .ok (r1, id) s1) {k : ℕ} {s2 : NB k} {live2 : List Reg}
    (hl : Onward NotMeas 0 s1 (r1 :: rest) k s2 live2) (it : List (Reg × ℕ)) (rnds : ℕ → ℝ) (v : List ℂ)
    (ms : List MeasResult) (hc : (root s2).calculateStateWithInit it rnds = some (v, ms)) :
    ∃ w ms0, { root s2 with pipeline := s.pipeline }.calculateStateWithInit it rnds = some (w, ms0) ∧
      getStochasticMeasurement ms id =
        some ((List.range (2 ^ r.length)).map fun m => bornProb (root s2).n r m (ampAt w 0)) ∧
      getMeasurement ms id = none := by
  have hm' : LocalMethod.measureStochastic.run [r] s = .ok [r1] s1 := by cases hm; rfl
  obtain ⟨h1, h2, rfl, seg, h3⟩ := measured (o := .stochastic) (id := id) h hp .measureStochastic hm' (by cases hm; rfl) (by cases hm; rfl)
    (by cases hm; rfl) hl
  exact handle_stochastic h1 h2 h3 hc

/-- C102: handles are distinct: a later measurement has a larger number. -/
theorem C102_distinct {s s1 : LocalBuilder} {live rest : List Reg} {r r1 : Reg} {id : ℕ} (h : Session NotMeas 0 s live)
    (hp : live.Perm (r :: rest)) (hm : LocalBuilder.measure r s = .ok (r1, id) s1 ∨ LocalBuilder.measureStochastic r s = .ok (r1, id) s1)
    {s2 s3 : LocalBuilder} {live2 : List Reg} (hl : Onward NotMeas 0 s1 (r1 :: rest) 0 s2 live2) {r2 r3 : Reg} {id' : ℕ}
    (hm' : LocalBuilder.measure r2 s2 = .ok (r3, id') s3 ∨ LocalBuilder.measureStochastic r2 s2 = .ok (r3, id') s3) : id < id' := by
  have key : id + 1 = s1.measurements ∧ Session NotMeas 0 s1 (r1 :: rest) := by
    rcases hm with hm | hm <;> cases hm
    · exact ⟨rfl, .ok (k := 0) (rs := [r]) (out := [r]) h (.onLocal .measure) hp rfl⟩
    · exact ⟨rfl, .ok (k := 0) (rs := [r]) (out := [r]) h (.onLocal .measureStochastic) hp rfl⟩
  have hid' : id' = s2.measurements := by rcases hm' with hm' | hm' <;> cases hm' <;> rfl
  obtain ⟨-, seg, -, g⟩ := Onward.extends (k₀ := 0) (s₀ := s1) key.2 hl
  have g : s2.measurements = s1.measurements + measCount seg := g
  omega

/-- two registers of one qubit, one of them measured, and then a conditioned gate -/
noncomputable def measuredOne : LocalBuilder := ⟨[([0], ⟨1, .meas .measurement⟩)], 2, [], 1⟩

theorem pair_session (ok : CObj → Prop) : Session ok 0 (⟨[], 2, [], 0⟩ : LocalBuilder) [[0], [1]] :=
  .ok (k := 0) (rs := [[0, 1]]) (rest := []) (s := (⟨[], 2, [], 0⟩ : LocalBuilder))
    (.ok (k := 0) (rs := []) (rest := []) (s := LocalBuilder.default) .start (.method (.register 2) trivial (by simp [Method.objects]))
      (List.Perm.refl _) (by rfl))
    (.method .splitAll trivial (by simp [Method.objects])) (List.Perm.refl _) (by rfl)

/-- the hypotheses of `C102_measure` are met: the handle is number 0, and afterwards the program works with a builder conditioned
on the measured register, where it allocates a register -/
example : Session NotMeas 0 (⟨[], 2, [], 0⟩ : LocalBuilder) [[0], [1]] ∧
    LocalBuilder.measure [0] (⟨[], 2, [], 0⟩ : LocalBuilder) = .ok ([0], 0) measuredOne ∧
    Onward NotMeas 0 measuredOne ([0] :: [[1]]) 1 (⟨⟨[([0], ⟨1, .meas .measurement⟩)], 3, [], 1⟩, some [0]⟩ : Conditioned LocalBuilder)
      ([[2]] ++ [[1]]) :=
  ⟨pair_session _, rfl, .ok (k := 1) (rs := []) (rest := [[1]]) (s := (⟨measuredOne, some [0]⟩ : Conditioned LocalBuilder))
    (.condition (k := 0) (s := measuredOne) (live := [[0], [1]]) .start (List.Perm.refl _))
    (.method (.register 1) trivial (by simp [Method.objects])) (List.Perm.refl _) (by rfl)⟩

/-- and of `C102_distinct`: measuring the other register next gives handle 1 -/
example : LocalBuilder.measure [1] measuredOne = .ok ([1], 1)
    ⟨[([0], ⟨1, .meas .measurement⟩), ([1], ⟨1, .meas .measurement⟩)], 2, [], 2⟩ ∧ (0 : ℕ) < 1 :=
  ⟨rfl, C102_distinct (s := (⟨[], 2, [], 0⟩ : LocalBuilder)) (s1 := measuredOne) (s2 := measuredOne) (pair_session _) (List.Perm.refl _)
    (.inl rfl) .start (r2 := [1]) (.inl rfl)⟩

end Verif.Props
