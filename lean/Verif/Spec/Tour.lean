import Verif.Spec.Loose
import Verif.Spec.Main
import Verif.Model.Look

/-!
# Specification: main programs that look at the state

A main program makes a new builder, allocates registers, runs structured programs, measures registers, makes builders with conditions and works on these for a while, and
calculates the state at any point, also on a builder with conditions.
-/

namespace Verif

/-- calculations on a builder inside `k` conditions -/
noncomputable instance NB.calculates : (k : ℕ) → Calculates (NB k)
  | 0 => inferInstanceAs (Calculates LocalBuilder)
  | k + 1 => letI := NB.calculates k; inferInstanceAs (Calculates (Conditioned (NB k)))

/-- a main program, on the registers it owns -/
inductive Tour where
  | done
  /-- a structured program on all registers -/
  | run (p : Prog) (t : Tour)
  /-- `measure` of register `i` -/
  | measure (i : ℕ) (t : Tour)
  /-- `calculate_state_with_init` with registers, given by their numbers, and values; `rnds` are the numbers drawn in it -/
  | look (it : List (ℕ × ℕ)) (rnds : ℕ → ℝ) (t : Tour)
  /-- `condition_with` register `i`, the inner program on the other registers, `dissolve` -/
  | within (i : ℕ) (body t : Tour)

/-- the registers and values given to a calculation -/
def lookAt (rs : List Reg) (it : List (ℕ × ℕ)) : List (Reg × ℕ) := it.map fun p => (rs.getD p.1 [], p.2)

/-- the program in Rust on a builder inside `k` conditions: registers, handles of measurements, results of calculations. `measure` is a method of `LocalBuilder` only
(builder.rs L590-600); a panic in a calculation ends the program. -/
noncomputable def Tour.exec : Tour → (k : ℕ) → List Reg → M (NB k) (List Reg × List ℕ × List (List ℂ × List MeasResult))
  | .done, _, rs => pure (rs, [], [])
  | .run p t, k, rs => do
    let rs ← p.run rs
    t.exec k rs
  | .measure i t, 0, rs =>
    match rs[i]? with
    | none => throw .panic
    | some r => do
      let (r, h) ← LocalBuilder.measure r
      let (rs, hs, ls) ← t.exec 0 (rs.set i r)
      pure (rs, h :: hs, ls)
  | .measure _ _, _ + 1, _ => throw .panic
  | .look it rnds t, k, rs => do
    let s ← get
    match Calculates.calculateWithInit s (lookAt rs it) rnds with
    | none => throw .panic
    | some c => do
      let (rs, hs, ls) ← t.exec k rs
      pure (rs, hs, c :: ls)
  | .within i body t, k, rs =>
    match rs[i]? with
    | none => throw .panic
    | some cr => do
      let ((rs, hs, ls), cr) ← Conditioned.conditioned (β := NB k) cr (body.exec (k + 1) (rs.eraseIdx i))
      let (rs, hs', ls') ← t.exec k (rs.insertIdx i cr)
      pure (rs, hs ++ hs', ls ++ ls')

/-- the main program: registers of the given sizes, then the steps -/
noncomputable def mainTour (sizes : List ℕ) (t : Tour) : M LocalBuilder (List Reg × List ℕ × List (List ℂ × List MeasResult)) := do
  let rs ← sizes.mapM LocalBuilder.register
  t.exec 0 rs

/-- the program can be carried out with the registers; the numbers drawn are in (0,1) -/
def Tour.Takes : Tour → (inside : Bool) → List Reg → Prop
  | .done, _, _ => True
  | .run p t, inside, rs => p.TakesLoose inside rs ∧ t.Takes inside rs
  | .measure i t, inside, rs => inside = false ∧ i < rs.length ∧ t.Takes inside rs
  | .look it rnds t, inside, rs => (∀ p ∈ it, p.1 < rs.length) ∧ (∀ k, 0 < rnds k ∧ rnds k < 1) ∧ t.Takes inside rs
  | .within i body t, inside, rs => i < rs.length ∧ rs.getD i [] ≠ [] ∧ body.Takes true (rs.eraseIdx i) ∧ t.Takes inside rs

/-- what happens in the course of a main program: the state changes, a register is measured, the state is calculated -/
inductive Event where
  | move (U : Asg → Wave)
  | meas (r : Reg)
  | look (it : List (Reg × ℕ)) (rnds : ℕ → ℝ)

/-- what a structured program does to a basis state inside conditions -/
noncomputable def Prog.inside (p : Prog) (cs : List Reg) (rs : List Reg) (x : Asg) : Wave :=
  open Classical in
  if cs = [] then p.looseWave .outside rs x else if ∀ c ∈ cs.flatten, x c = true then p.looseWave .held rs x else p.looseWave .idle rs x

/-- the events of a program inside the conditions `cs` -/
noncomputable def Tour.events : Tour → (cs rs : List Reg) → List Event
  | .done, _, _ => []
  | .run p t, cs, rs => .move (p.inside cs rs) :: t.events cs rs
  | .measure i t, cs, rs => .meas (rs.getD i []) :: t.events cs rs
  | .look it rnds t, cs, rs => .look (lookAt rs it) rnds :: t.events cs rs
  | .within i body t, cs, rs => body.events (rs.getD i [] :: cs) (rs.eraseIdx i) ++ t.events cs rs

/-- the number of measurements -/
def measured : List Event → ℕ
  | [] => 0
  | .meas _ :: es => measured es + 1
  | _ :: es => measured es

/-- the number of calculations -/
def looked : List Event → ℕ
  | [] => 0
  | .look _ _ :: es => looked es + 1
  | _ :: es => looked es

/-- what is left of a state, not scaled, if the measurements give the outcomes `ms` -/
noncomputable def eventsW : List Event → List ℕ → Wave → Wave
  | [], _, ψ => ψ
  | .move U :: es, ms, ψ => eventsW es ms (Finsupp.linearCombination ℂ U ψ)
  | .look _ _ :: es, ms, ψ => eventsW es ms ψ
  | .meas _ :: _, [], _ => 0
  | .meas r :: es, m :: ms, ψ => eventsW es ms (projW r m ψ)

/-- the probability of each outcome, given the earlier ones -/
noncomputable def eventsP : List Event → List ℕ → Wave → List ℝ
  | [], _, _ => []
  | .move U :: es, ms, ψ => eventsP es ms (Finsupp.linearCombination ℂ U ψ)
  | .look _ _ :: es, ms, ψ => eventsP es ms ψ
  | .meas _ :: _, [], _ => []
  | .meas r :: es, m :: ms, ψ => normW (projW r m ψ) / normW ψ :: eventsP es ms (projW r m ψ)

/-- the result `c` of a calculation shows the events so far: there are outcomes `ms`, of positive probability, which it reports together with the probability of each given
the earlier ones, and its state vector, of at least `n` qubits, is what they leave of the initial state, scaled to length 1 -/
def Shows (n : ℕ) (es : List Event) (it : List (Reg × ℕ)) (c : List ℂ × List MeasResult) : Prop :=
  ∃ (n' : ℕ) (ms : List ℕ), n ≤ n' ∧ ms.length = measured es ∧ c.2.length = measured es ∧
    (∀ (j : ℕ) (hj : j < ms.length), ∃ pr, (eventsP es ms (ket (initAsg it)))[j]? = some pr ∧ getMeasurement c.2 j = some (ms[j], pr)) ∧
    0 < normW (eventsW es ms (ket (initAsg it))) ∧ Rep n' c.1 (unitW (eventsW es ms (ket (initAsg it))))

end Verif
