import Verif.Proofs.Tour
import Verif.Props.Main
import Verif.Props.Loose

/-!
# Property C113: looking at the state from anywhere

Main programs as in C106, whose programs may also have rotations inside conditions (C112), and which calculate the state at any point, also on a builder with conditions.
-/

namespace Verif.Props
open Classical Rooted

/-- C113: a builder with conditions calculates what the builder without conditions under it calculates; so do `calculate_state` and `make_circuit_matrix`. -/
theorem C113_root (k : ℕ) (s : NB k) :
    (∀ it rnds, Calculates.calculateWithInit s it rnds = (root s).calculateStateWithInit it rnds) ∧
    (∀ rnds, calculateOn s rnds = (root s).calculateState rnds) ∧
    ∀ r f rnds, circuitMatrixOn s r f rnds = makeCircuitMatrix (root s) r f rnds := by
  refine ⟨calculates_root k s, fun rnds => calculates_root k s [] rnds, fun r f rnds => ?_⟩
  unfold circuitMatrixOn makeCircuitMatrix
  simp only [calculates_root]

/-- C113: a main program that looks at the state succeeds, returns its registers, the handles 0, 1, 2, … of its measurements and one result for each calculation, in this
order. Each result shows all that happened before it, whether the calculation was made inside conditions or not, and the calculations change nothing. -/
theorem C113_looks (sizes : List ℕ) (hpos : ∀ k ∈ sizes, 0 < k) (t : Tour) (hT : t.Takes false (blocks 0 sizes)) :
    ∃ s ls, mainTour sizes t LocalBuilder.default = .ok (blocks 0 sizes, List.range (measured (t.events [] (blocks 0 sizes))), ls) s ∧
      ls.length = looked (t.events [] (blocks 0 sizes)) ∧
      ∀ pre it rnds post, t.events [] (blocks 0 sizes) = pre ++ .look it rnds :: post → ∃ c, ls[looked pre]? = some c ∧ Shows sizes.sum pre it c := by
  obtain ⟨s, ls, e, -, l⟩ := mainTour_does sizes hpos t hT
  exact ⟨s, ls, e, l.at⟩

/-- C113: the Born rule for calculations after such a program. -/
theorem C113_born {sizes : List ℕ} (hpos : ∀ k ∈ sizes, 0 < k) {t : Tour} (hT : t.Takes false (blocks 0 sizes)) {out : List Reg × List ℕ × List (List ℂ × List MeasResult)}
    {s : LocalBuilder} (h : mainTour sizes t LocalBuilder.default = .ok out s) (it : List (Reg × ℕ)) (hi : ∀ p ∈ it, p.1 ∈ blocks 0 sizes)
    (ms : List ℕ) (hm : ms.length = measured (t.events [] (blocks 0 sizes))) :
    outcomeProb s it ms = ENNReal.ofReal (normW (eventsW (t.events [] (blocks 0 sizes)) ms (ket (initAsg it)))) := by
  obtain ⟨s', ls, e, f, -⟩ := mainTour_does sizes hpos t hT
  rw [h] at e
  cases e
  have hq : ∀ p ∈ it, ∀ q ∈ p.1, q < sizes.sum := fun p hp q hq => by
    have : q ∈ (blocks 0 sizes).flatten := List.mem_flatten.mpr ⟨_, hi p hp, hq⟩
    rw [blocks_eq, ranges_flatten] at this
    simpa using this
  have hc : On {x | Clean { LocalBuilder.default with n := sizes.sum } x} (ket (initAsg it)) := by
    refine On.ket ?_
    rintro q (hq' | hq')
    · cases hq'
    · unfold initAsg
      refine decide_eq_false ?_
      rintro ⟨p, hp, k, hk, -⟩
      exact absurd hq' (not_le.mpr (hq p hp q (List.mem_of_getElem? hk)))
  rw [C76_born_rule s it (fun p hp q hq' => lt_of_lt_of_le (hq p hp q hq') f.n_le) f.ok ms (by rw [hm, f.count]), (f.run ms hm _ hc).1]

/-! ## example: H on the first qubit, and with this as the condition a rotation of the second by π about x; the state is calculated inside the condition -/

/-- `program! { h(a) }` on two registers -/
def hFirst : Prog := .prog (.plain (.call (.named .h)) [[(0, none)]] .nil)

/-- in Rust: h on the first register, `condition_with` it, `rx` of the second, `calculate_state` on the conditioned builder, `dissolve`, `measure` the first register,
`calculate_state` -/
noncomputable def peek (rnds rnds' : ℕ → ℝ) : Tour :=
  .run hFirst (.within 0 (.run (.call (.rx Real.pi)) (.look [] rnds .done)) (.measure 0 (.look [(1, 1)] rnds' .done)))

theorem peek_takes (rnds rnds' : ℕ → ℝ) (hr : ∀ k, 0 < rnds k ∧ rnds k < 1) (hr' : ∀ k, 0 < rnds' k ∧ rnds' k < 1) : (peek rnds rnds').Takes false (blocks 0 [1, 1]) := by
  have hb : blocks 0 [1, 1] = [[0], [1]] := rfl
  rw [hb]
  refine ⟨?_, by decide, by decide, ⟨Or.inr ⟨rfl, rfl, by decide⟩, by simp, hr, trivial⟩, rfl, by decide, by simp, hr', trivial⟩
  simp only [hFirst, Prog.TakesLoose, Lines.TakesLoose]
  exact ⟨by decide, ⟨by decide, by decide, by decide, by unfold HasPos; decide⟩, Or.inl ⟨by decide, by simp⟩, trivial⟩

theorem peek_events (rnds rnds' : ℕ → ℝ) : (peek rnds rnds').events [] [[0], [1]] =
    [.move (hFirst.inside [] [[0], [1]]), .move ((Prog.call (.rx Real.pi)).inside [[0]] [[1]]), .look [] rnds, .meas [0], .look [([1], 1)] rnds'] := rfl

example (rnds rnds' : ℕ → ℝ) (hr : ∀ k, 0 < rnds k ∧ rnds k < 1) (hr' : ∀ k, 0 < rnds' k ∧ rnds' k < 1) :
    ∃ s c c', mainTour [1, 1] (peek rnds rnds') LocalBuilder.default = .ok ([[0], [1]], [0], [c, c']) s ∧
      Shows 2 [.move (hFirst.inside [] [[0], [1]]), .move ((Prog.call (.rx Real.pi)).inside [[0]] [[1]])] [] c := by
  obtain ⟨s, ls, e, l1, l2⟩ := C113_looks [1, 1] (by decide) (peek rnds rnds') (peek_takes rnds rnds' hr hr')
  have hb : blocks 0 [1, 1] = [[0], [1]] := rfl
  rw [hb, peek_events] at e l1 l2
  obtain ⟨c, c', rfl⟩ : ∃ c c', ls = [c, c'] := List.length_eq_two.mp l1
  obtain ⟨d, d1, d2⟩ := l2 [.move (hFirst.inside [] [[0], [1]]), .move ((Prog.call (.rx Real.pi)).inside [[0]] [[1]])] [] rnds [.meas [0], .look [([1], 1)] rnds'] rfl
  obtain rfl : c = d := by simpa [looked] using d1
  exact ⟨s, c, c', e, d2⟩

/-- the rotation is the same on both sides of the condition: the calculation inside shows `(|0> + |1>)/√2` for the first qubit and `-i|1>` for the second -/
theorem peek_state : eventsW [.move (hFirst.inside [] [[0], [1]]), .move ((Prog.call (.rx Real.pi)).inside [[0]] [[1]])] [] (ket fun _ => false) =
    gateW [1] (rxMat Real.pi) (gateW [0] (Named.mat .h) (ket fun _ => false)) := by
  have h1 : ∀ x, (Prog.call (.rx Real.pi)).inside [[0]] [[1]] x = gateW [1] (rxMat Real.pi) (ket x) := fun x => by
    unfold Prog.inside
    rw [if_neg (by simp)]
    split_ifs <;> rfl
  have h2 : hFirst.inside [] [[0], [1]] (fun _ => false) = gateW [0] (Named.mat .h) (ket fun _ => false) := by
    unfold Prog.inside
    rw [if_pos rfl]
    simp only [hFirst, Prog.looseWave, Lines.looseWave, lift_eq]
    rw [Both.lift_id]
    rfl
  simp only [eventsW, lift_eq]
  rw [lift_ket, h2, funext h1]
  have : lift (fun x => gateW [1] (rxMat Real.pi) (ket x)) = gateW [1] (rxMat Real.pi) := wave_ext fun y => by rw [lift_ket]
  rw [this]

end Verif.Props
