import Verif.Proofs.InvertFn
import Verif.Proofs.Calc2
import Verif.Proofs.Calc3
import Verif.Props.Gates

/-!
# Properties C39–C42: subcircuits and their inverses

C39: the inverse of a subcircuit undoes it.
C40: refuted as stated; `apply_subcircuit` panics unless the subcircuit reaches the last qubit of the register.
C41: refuted as stated for the same reason; proved for functions whose circuit reaches the last qubit.
C42: refuted; subcircuits with measurements shift the numbers of later ones.
-/

namespace Verif.Props
open Complex Classical

/-! ## C39 -/

/-- `invert_subcircuit` succeeds on every measurement-free subcircuit, and the result undoes the subcircuit, before and
after it, on every state (`ang`: the angles of the rotations, those of negated ones being the negatives). The global
phases, which `runW` leaves out, cancel too. -/
theorem C39_inverse (ang : Rot → ℝ) (hang : ∀ ρ, ang (Rot.neg ρ) = -ang ρ) (n : ℕ) (sc : Pipeline)
    (h : ∀ e ∈ sc, SubOK n e) (hu : UnitaryMats sc) :
    ∃ inv, invertSub sc = .ok inv ∧ (∀ e ∈ inv, SubOK n e) ∧
      (∀ ψ, runW ang inv (runW ang sc ψ) = ψ ∧ runW ang sc (runW ang inv ψ) = ψ) ∧
      phases ang sc * phases ang inv = 1 := by
  obtain ⟨p, p1, p2, -, -, p5, p6⟩ := invertSub_ok hang n sc h
  exact ⟨p, p1, p2, p6 hu, p5⟩

/-- the angles used in the calculation are such -/
theorem rotAngle_neg (ρ : Rot) : rotAngle (Rot.neg ρ) = -rotAngle ρ := by
  cases ρ <;> simp [rotAngle, Rot.neg]

/-- The same for the computed states: a circuit followed by a subcircuit and its inverse gives the same state as the
circuit alone. (Global phases are excluded because of C43.) -/
theorem C39_computed (n : ℕ) (c sc : Pipeline) (hc : ∀ e ∈ c, SegOK n e) (h : ∀ e ∈ sc, SegU n e)
    (it : List (Reg × ℕ)) (hi : ∀ p ∈ it, ∀ q ∈ p.1, q < n) (rnds : ℕ → ℝ) :
    ∃ inv v, invertSub sc = .ok inv ∧
      LocalBuilder.calculateStateWithInit ⟨c, n, [], 0⟩ it rnds = some (v, []) ∧
      LocalBuilder.calculateStateWithInit ⟨c ++ sc ++ inv, n, [], 0⟩ it rnds = some (v, []) := by
  obtain ⟨p, p1, p2, p3, -, -, p6⟩ := invertSub_ok rotAngle_neg n sc fun e he =>
    ⟨(h e he).1.1, (h e he).1.2.1, (h e he).1.2.2.choose, (h e he).1.2.2.choose_spec.1⟩
  obtain ⟨v, h1, h2⟩ := calculate_unitary ⟨c, n, [], 0⟩ it hi hc rnds
  obtain ⟨w, h3, h4⟩ := calculate_unitary ⟨c ++ sc ++ p, n, [], 0⟩ it hi (by
    intro e he
    rcases List.mem_append.mp he with he | he
    · rcases List.mem_append.mp he with he | he
      · exact hc e he
      · exact (h e he).1
    · exact (p3 h e he).1) rnds
  have : w = v := by
    simp only [runW_append] at h4
    rw [(p6 (fun e he => (h e he).2) _).1] at h4
    exact rep_unique h4 h2
  rw [this] at h3
  exact ⟨p, v, p1, h1, h3⟩

/-- A subcircuit with a measurement is refused. -/
theorem C39_measurement (n : ℕ) (sc : Pipeline) (h : ∀ e ∈ sc, EntryOK n e ∧ e.2.n = e.1.length)
    (hm : ∃ e ∈ sc, ∃ t, e.2.object = .meas t) : invertSub sc = .error .error := invertSub_meas n sc h hm

/-- `h` on qubit 0, `cnot` from 0 to 1, `t` on 1 -/
def bell : Pipeline := [([0], ⟨1, .unitary .H⟩), ([0, 1], ⟨2, .unitary .CNOT⟩), ([1], ⟨1, .unitary .T⟩)]

theorem bell_ok : ∀ e ∈ bell, SegU 2 e := by
  intro e he
  simp only [bell, List.mem_cons, List.not_mem_nil, or_false] at he
  rcases he with rfl | rfl | rfl
  · exact ⟨⟨⟨by simp, by simp, fun u hu => by cases hu; rfl⟩, rfl, _, rfl, by simp⟩, by simp⟩
  · exact ⟨⟨⟨by simp, by simp, fun u hu => by cases hu; rfl⟩, rfl, _, rfl, by simp⟩, by simp⟩
  · exact ⟨⟨⟨by simp, by simp, fun u hu => by cases hu; rfl⟩, rfl, _, rfl, by simp⟩, by simp⟩

example : (∀ e ∈ bell, SubOK 2 e) ∧ UnitaryMats bell :=
  ⟨fun e he => ⟨(bell_ok e he).1.1, (bell_ok e he).1.2.1, (bell_ok e he).1.2.2.choose, (bell_ok e he).1.2.2.choose_spec.1⟩,
    fun e he => (bell_ok e he).2⟩

example : invertSub (bell ++ [([1], ⟨1, .meas .measurement⟩)]) = .error .error := by
  refine C39_measurement 2 _ ?_ ⟨([1], ⟨1, .meas .measurement⟩), by simp, _, rfl⟩
  intro e he
  rcases List.mem_append.mp he with he | he
  · exact ⟨(bell_ok e he).1.1, (bell_ok e he).1.2.1⟩
  · rw [List.mem_singleton] at he
    subst he
    exact ⟨⟨by simp, by simp, fun u hu => by cases hu⟩, rfl⟩

/-! ## C40 -/

/-- what C40 asks of one call: `sc` is appended with qubit `k` renamed to the `k`-th qubit of `r` followed by
temporaries `t`, which were in the pool or are new, are distinct from all qubits held, and end up in the pool; the
register is returned -/
def Replays (s : LocalBuilder) (L : List ℕ) (sc : Pipeline) (r : Reg) : Prop :=
  ∃ t s', Recursive.applySub sc r s = .ok r s' ∧ (r ++ t ++ L).Nodup ∧
    (∀ q ∈ t, q ∈ s.zeroedQubits.flatten ∨ s.n ≤ q) ∧ (∀ q ∈ t, q ∈ s'.zeroedQubits.flatten) ∧
    (∀ e ∈ sc, ∀ k ∈ e.1, k < (r ++ t).length) ∧
    s'.pipeline = s.pipeline ++ sc.map (fun e => (e.1.map fun k => (r ++ t).getD k 0, e.2)) ∧
    Own s' (r ++ L)

/-- elements of a subcircuit: at least one qubit, all distinct, as many as the object has -/
def Elem (e : List ℕ × CObj) : Prop := e.1 ≠ [] ∧ e.1.Nodup ∧ e.2.n = e.1.length

/-- C40: `apply_subcircuit` replays every subcircuit on every register -/
def C40_claim : Prop :=
  ∀ (s : LocalBuilder) (L : List ℕ) (sc : Pipeline) (r : Reg), r ≠ [] → (∀ e ∈ sc, Elem e) → Own s (r ++ L) →
    Replays s L sc r

/-- `apply_subcircuit` panics whenever the subcircuit does not touch the last qubit of the register or one beyond it. -/
theorem C40_panics (s : LocalBuilder) (sc : Pipeline) (r : Reg) (hr : r ≠ [])
    (hn : r.Nodup) (h : ∀ e ∈ sc, ∀ k ∈ e.1, k + 1 < r.length) : Recursive.applySub sc r s = .error .panic s := by
  show applyPipelineObjects sc r s = _
  unfold applyPipelineObjects
  rw [splitAll_eq r hr hn, pure_bind]
  cases hm : maxIndex sc with
  | none => rfl
  | some m =>
    obtain ⟨⟨e, he, hk⟩, -⟩ := (maxIndex_iff sc m).mp hm
    have := h e he m hk
    rw [unwrapO_some, pure_bind, if_pos (by omega)]
    rfl

/-- two qubits in use -/
def two : LocalBuilder := ⟨[], 2, [], 0⟩
theorem two_own : Own two ([0, 1] ++ []) := ⟨by simp [two], by simp [two], by simp [two]⟩

/-- an `x` on the first qubit only cannot be applied to a register of two qubits -/
theorem C40_refuted : ¬ C40_claim := by
  intro h
  obtain ⟨t, s', h1, -⟩ := h two [] [([0], ⟨1, .unitary .X⟩)] [0, 1] (by simp) (by
    intro e he
    rw [List.mem_singleton] at he
    subst he
    exact ⟨by simp, by simp, rfl⟩) two_own
  rw [C40_panics two _ [0, 1] (by simp) (by simp) (by simp)] at h1
  cases h1

/-- Proved part of C40: if the subcircuit touches the last qubit of the register or one beyond it, it is replayed. -/
theorem C40_partial (s : LocalBuilder) (L : List ℕ) (sc : Pipeline) (r : Reg) (hr : r ≠ []) (h : ∀ e ∈ sc, Elem e)
    (ho : Own s (r ++ L)) (ht : ∃ e ∈ sc, ∃ k ∈ e.1, r.length ≤ k + 1) : Replays s L sc r := by
  obtain ⟨e, he, k, hk, hle⟩ := ht
  obtain ⟨m, m1, m2⟩ := maxIndex_of_touched ⟨e, he, hk⟩
  obtain ⟨t, s', h1, h2, h3, h4, h5, -, -, -, h9, h10, -⟩ := applySub_local hr m1 (by omega) h ho
  refine ⟨t, s', h1, h3, h4, h10, ?_, h5, h9⟩
  intro e' he' k' hk'
  have := ((maxIndex_iff sc m).mp m1).2 e' he' k' hk'
  rw [List.length_append]
  omega

/-- Its effect: started with clean temporaries, and provided it returns the qubits beyond the register to 0, the
subcircuit acts on the qubits of the register as `V` does on the first qubits. -/
theorem C40_effect_partial (ang : Rot → ℝ) (s : LocalBuilder) (L : List ℕ) (sc : Pipeline) (r : Reg) (hr : r ≠ []) (n : ℕ)
    (h : ∀ e ∈ sc, SegU n e) (ho : Own s (r ++ L)) (ht : ∃ e ∈ sc, ∃ k ∈ e.1, r.length ≤ k + 1) (V : Asg → Wave)
    (hV : ∀ z, (∀ i, r.length ≤ i → z i = false) →
      runW ang sc (ket z) = V z ∧ ∀ y ∈ (V z).support, ∀ i, r.length ≤ i → y i = false) :
    Does ang (Recursive.applySub sc r) s r (r ++ L) (moveW r V) := by
  obtain ⟨e, he, k, hk, hle⟩ := ht
  obtain ⟨m, m1, m2⟩ := maxIndex_of_touched ⟨e, he, hk⟩
  exact applySub_does hr m1 (by omega) h ho V fun z hz => ⟨(hV z hz).1, on_iff.mpr (hV z hz).2⟩

/-- `bell` applied to a register of two qubits of five, one of which is in the pool of temporaries -/
example : Replays fiveQubits [3] bell [2, 0] := by
  refine C40_partial _ _ _ _ (by simp) (fun e he => ?_) ⟨by simp [fiveQubits], by simp [fiveQubits], by simp [fiveQubits]⟩
    ⟨([1], ⟨1, .unitary .T⟩), by simp [bell], 1, by simp, by simp⟩
  have := (bell_ok e he).1
  exact ⟨segOK_ne (bell_ok e he), this.1.1, this.2.1⟩

/-- `bell` applied to one qubit: the other one is a temporary -/
example : Replays fiveQubits [3] bell [2] := by
  refine C40_partial _ _ _ _ (by simp) (fun e he => ?_) ⟨by simp [fiveQubits], by simp [fiveQubits], by simp [fiveQubits]⟩
    ⟨([1], ⟨1, .unitary .T⟩), by simp [bell], 1, by simp, by simp⟩
  have := (bell_ok e he).1
  exact ⟨segOK_ne (bell_ok e he), this.1.1, this.2.1⟩

/-! ## C41 -/

/-- `f` and then its inverse, and the other way round, restore every state, in every builder, for both ways to get the
inverse -/
def Undone (ang : Rot → ℝ) (f : List Reg → M LocalBuilder (List Reg)) (sizes : List ℕ) : Prop :=
  ∀ g : List Reg → M LocalBuilder (List Reg), (g = (fun rs => inverter rs f) ∨ g = invertFn f) →
    ∀ (s : LocalBuilder) (rs : List Reg) (L : List ℕ), rs.map List.length = sizes → Own s (rs.flatten ++ L) →
      Does ang (do g (← f rs)) s rs (rs.flatten ++ L) ket ∧ Does ang (do f (← g rs)) s rs (rs.flatten ++ L) ket

/-- C41: for every function `f` from registers of given sizes to the same registers that acts alike in every builder -/
def C41_claim : Prop :=
  ∀ (ang : Rot → ℝ), (∀ ρ, ang (Rot.neg ρ) = -ang ρ) → ∀ (f : List Reg → M LocalBuilder (List Reg)) (sizes : List ℕ)
    (V : Asg → Wave), sizes ≠ [] → (∀ k ∈ sizes, 0 < k) → Uniform ang f sizes V → Undone ang f sizes

/-- Proved part of C41: the circuit of `f` touches the last qubit of the registers (or a temporary after it). -/
theorem C41_partial (ang : Rot → ℝ) (hang : ∀ ρ, ang (Rot.neg ρ) = -ang ρ) (f : List Reg → M LocalBuilder (List Reg))
    (sizes : List ℕ) (V : Asg → Wave) (hne : sizes ≠ []) (hpos : ∀ k ∈ sizes, 0 < k) (hf : Uniform ang f sizes V)
    (ht : ∃ p, buildSub sizes f = .ok p ∧ ∃ e ∈ p, ∃ k ∈ e.1, sizes.sum ≤ k + 1) : Undone ang f sizes := by
  obtain ⟨V', h1, h2, h3⟩ := uniform_inverse hang hf hne hpos ht
  intro g hg s rs L hrs ho
  have hlen : rs.flatten.length = sizes.sum := by rw [List.length_flatten, hrs]
  have hg' : Uniform ang g sizes V' := by
    rcases hg with rfl | rfl
    · exact h2
    · exact h3
  constructor
  · refine (Does.bind (f := g) (hf s rs L hrs ho) fun s' _ ho' => ?_).congrU fun x _ => (h1 _ (List.nodup_append.mp ho.left).1 hlen x).2
    exact hg' s' rs L hrs ho'
  · refine (Does.bind (f := f) (hg' s rs L hrs ho) fun s' _ ho' => ?_).congrU fun x _ => (h1 _ (List.nodup_append.mp ho.left).1 hlen x).1
    exact hf s' rs L hrs ho'

/-- a function that adds the same circuit `sc`, carried out on its registers, in every builder, is such -/
theorem uniform_emits (ang : Rot → ℝ) (f : List Reg → M LocalBuilder (List Reg)) (sizes : List ℕ) (sc : Pipeline)
    (h : ∀ rs : List Reg, rs.map List.length = sizes → rs.flatten.Nodup → Emits (f rs) rs (rename rs.flatten sc))
    (hsc : ∀ e ∈ sc, SegU sizes.sum e) : Uniform ang f sizes fun y => runW ang sc (ket y) := by
  intro s rs L hrs ho
  have hn := (List.nodup_append.mp ho.left).1
  have hlen : rs.flatten.length = sizes.sum := by rw [List.length_flatten, hrs]
  have hlt : ∀ e ∈ sc, ∀ i ∈ e.1, i < rs.flatten.length := fun e he i hi => by rw [hlen]; exact (hsc e he).1.1.2.1 i hi
  refine ((h rs hrs hn).does ang ho ?_).congrU fun x _ =>
    run_rename_ket rs.flatten hn sc (fun e he => ⟨(hsc e he).1.1.1, hlt e he⟩) x
  intro e' he'
  obtain ⟨e, he, rfl⟩ := List.mem_map.mp he'
  obtain ⟨⟨⟨e1, e2, e3⟩, e4, u, e5, e6⟩, e7⟩ := hsc e he
  have hm := at_mem rs.flatten e.1 (hlt e he)
  refine ⟨⟨⟨⟨at_nodup _ hn _ e1 (hlt e he), fun i hi => ho.mem_lt (by simp [hm i hi]), ?_⟩, ?_, u, e5, e6⟩, ?_⟩, fun q hq => by simp [hm q hq]⟩
  · simp only [at_length]; exact e3
  · simp only [at_length]; exact e4
  · simp only [at_length]; exact e7

/-- `x` on the first of two registers -/
def flipFirst : List Reg → M LocalBuilder (List Reg)
  | [a, b] => do pure [← Gate.x a, b]
  | rs => pure rs

theorem flipFirst_uniform (ang : Rot → ℝ) :
    Uniform ang flipFirst [1, 1] fun y => runW ang [([0], ⟨1, .unitary .X⟩)] (ket y) := by
  refine uniform_emits ang _ _ _ ?_ ?_
  · intro rs hrs hn
    match rs, hrs with
    | [[a], [b]], _ =>
      intro s
      show (Gate.x [a] >>= fun a => pure [a, [b]]) s = _
      rw [bind_ok (x_emits [a] (by simp) (by simp) s)]
      rfl
  · intro e he
    rw [List.mem_singleton] at he
    subst he
    exact ⟨⟨⟨by simp, by simp, fun u hu => by cases hu; rfl⟩, rfl, _, rfl, by simp⟩, by simp⟩

/-- The inverse of a function that leaves the last register alone cannot be applied. -/
theorem C41_refuted : ¬ C41_claim := by
  intro h
  obtain ⟨s', h1, -⟩ := (h rotAngle rotAngle_neg flipFirst [1, 1] _ (by simp) (by simp) (flipFirst_uniform _) _ (Or.inl rfl)
    two [[0], [1]] [] rfl two_own).2
  have hb : buildSub [1, 1] flipFirst = .ok [([0], ⟨1, .unitary .X⟩)] := rfl
  have hi : invertSub [([0], ⟨1, .unitary .X⟩)] = .ok [([0], ⟨1, .unitary .X⟩)] := rfl
  have h2 : inverter [[0], [1]] flipFirst two = .error .panic two := by
    unfold inverter inverterArgs
    rw [show buildSub ([[0], [1]].map List.length) (fun rs => flipFirst rs) = _ from hb, liftE_ok, pure_bind,
      mergeRegisters_ne _ (by simp) (by simp), pure_bind, unwrapO_some, pure_bind]
    refine bind_err (β := LocalBuilder) ?_
    unfold applyInverted
    rw [hi, liftE_ok, pure_bind]
    exact C40_panics two _ [0, 1] (by simp) (by simp) (by simp)
  rw [bind_err (β := LocalBuilder) (x := (fun rs => inverter rs flipFirst) [[0], [1]]) h2] at h1
  cases h1

/-- entangling two qubits -/
def entangle : List Reg → M LocalBuilder (List Reg)
  | [a, b] => do
    let a ← Gate.h a
    let (a, b) ← cnot a b
    pure [a, b]
  | rs => pure rs

def entangleCircuit : Pipeline := [([0], ⟨1, .unitary .H⟩), ([0, 1], ⟨2, .unitary .CNOT⟩)]

theorem entangle_uniform (ang : Rot → ℝ) : Uniform ang entangle [1, 1] fun y => runW ang entangleCircuit (ket y) := by
  refine uniform_emits ang _ _ _ ?_ ?_
  · intro rs hrs hn
    match rs, hrs with
    | [[a], [b]], _ =>
      have hab : [a, b].Nodup := hn
      refine Emits.cast (Emits.bind (h_emits [a] (by simp) (by simp)) (Emits.bind (f := fun p => pure [p.1, p.2]) (cnot_emits a [b] (by simp) hab)
        (Emits.pure [[a], [b]]))) rfl rfl
  · intro e he
    simp only [entangleCircuit, List.mem_cons, List.not_mem_nil, or_false] at he
    rcases he with rfl | rfl
    · exact ⟨⟨⟨by simp, by simp, fun u hu => by cases hu; rfl⟩, rfl, _, rfl, by simp⟩, by simp⟩
    · exact ⟨⟨⟨by simp, by simp, fun u hu => by cases hu; rfl⟩, rfl, _, rfl, by simp⟩, by simp⟩

example : Undone rotAngle entangle [1, 1] :=
  C41_partial rotAngle rotAngle_neg entangle [1, 1] _ (by simp) (by simp) (entangle_uniform _)
    ⟨entangleCircuit, rfl, ([0, 1], ⟨2, .unitary .CNOT⟩), by simp [entangleCircuit], 1, by simp, by simp⟩

/-- A function that measures cannot be inverted: an error, and nothing is added. -/
theorem C41_measurement (n : ℕ) (f : List Reg → M LocalBuilder (List Reg)) (s : LocalBuilder) (rs : List Reg) (sc : Pipeline)
    (hne : rs ≠ []) (hr : ∀ r ∈ rs, r ≠ []) (hb : buildSub (rs.map List.length) f = .ok sc)
    (h : ∀ e ∈ sc, EntryOK n e ∧ e.2.n = e.1.length) (hm : ∃ e ∈ sc, ∃ t, e.2.object = .meas t) :
    (inverter rs f : M LocalBuilder _) s = .error .error s ∧ (invertFn f rs : M LocalBuilder _) s = .error .error s := by
  have hi : ∀ r, (applyInverted sc r : M LocalBuilder _) s = .error .error s := by
    intro r
    unfold applyInverted
    rw [invertSub_meas n sc h hm]
    rfl
  constructor
  · unfold inverter inverterArgs
    rw [show buildSub (rs.map List.length) (fun rs => f rs) = _ from hb, liftE_ok, pure_bind,
      mergeRegisters_ne _ hne hr, pure_bind, unwrapO_some, pure_bind]
    exact bind_err (β := LocalBuilder) (hi _)
  · unfold invertFn
    rw [hb, liftE_ok, pure_bind, mergeRegisters_ne _ hne hr, pure_bind, unwrapO_some, pure_bind]
    exact bind_err (β := LocalBuilder) (hi _)

/-- measures its register -/
def measuring : List Reg → M LocalBuilder (List Reg)
  | [a] => do
    let (a, _) ← LocalBuilder.measure a
    pure [a]
  | rs => pure rs

example : (inverter [[0, 1]] measuring : M LocalBuilder _) two = .error .error two :=
  (C41_measurement 2 measuring two [[0, 1]] [([0, 1], ⟨2, .meas .measurement⟩)] (by simp) (by simp) rfl (by
    intro e he
    rw [List.mem_singleton] at he
    subst he
    exact ⟨⟨by simp, by simp, fun u hu => by cases hu⟩, rfl⟩) ⟨_, List.mem_singleton.mpr rfl, _, rfl⟩).1

/-! ## C42 -/

/-- C42 for a measurement after a subcircuit: it is the last one of the circuit, so its result is the last one -/
def C42_claim : Prop :=
  ∀ (s s1 s2 : LocalBuilder) (r0 r : Reg) (L : List ℕ) (sc : Pipeline) (id : ℕ), Own s (r0 ++ r ++ L) → (∀ e ∈ sc, Elem e) →
    s.pipeline = [] → s.measurements = 0 →
    Recursive.applySub sc r0 s = .ok r0 s1 → LocalBuilder.measure r s1 = .ok (r, id) s2 →
    ∀ (it : List (Reg × ℕ)) (rnds : ℕ → ℝ) (v : List ℂ) (ms : List MeasResult) (val : ℕ) (p : ℝ), (∀ k, 0 < rnds k ∧ rnds k ≤ 1) →
      s2.calculateStateWithInit it rnds = some (v, ms) → ms.getLast? = some (.single val p) →
      getMeasurement ms id = some (val, p)

/-- Two qubits, the second initialised to 1. A subcircuit measures the first, then the second is measured. The handle
of the latter fetches the result of the former. -/
theorem C42_refuted : ¬ C42_claim := by
  intro h
  let e1 : List ℕ × CObj := ([0], ⟨1, .meas .measurement⟩)
  let e2 : List ℕ × CObj := ([1], ⟨1, .meas .measurement⟩)
  have hfold : LocalBuilder.calculateStateWithInit ⟨[e1, e2], 2, [], 1⟩ [([1], 1)] (fun _ => 1) =
      some (bvec 2 1, [.single 0 1, .single 1 1]) := by
    refine calculate_of_fold ⟨[e1, e2], 2, [], 1⟩ [([1], 1)] (fun _ => 1) 1 (by decide) (by decide)
      ⟨bvec 2 1, bvec 2 1, [.single 0 1, .single 1 1]⟩ ?_
    have m1 := measure_bvec 2 1 (by decide) [0] (by simp) (by simp) (List.replicate (2 ^ 2) 0) (by simp) 1 (by norm_num) le_rfl
    have m2 := measure_bvec 2 1 (by decide) [1] (by simp) (by simp) (bvec 2 1) (bvec_length _ _) 1 (by norm_num) le_rfl
    rw [show valQ [0] (asg 2 1) = 0 from rfl] at m1
    rw [show valQ [1] (asg 2 1) = 1 from rfl] at m2
    show calcFold 2 _ [e1, e2] (calcInit 2 1) = _
    have s1 : calcStep 2 (fun _ => 1) (calcInit 2 1) e1 = some ⟨bvec 2 1, bvec 2 1, [.single 0 1]⟩ := by
      unfold calcStep calcInit
      simp only [e1, Nat.one_shiftLeft]
      rw [show (List.replicate (2 ^ 2) (0 : ℂ)).set 1 1 = bvec 2 1 from rfl, m1]
      rfl
    have s2 : calcStep 2 (fun _ => 1) ⟨bvec 2 1, bvec 2 1, [.single 0 1]⟩ e2 = some ⟨bvec 2 1, bvec 2 1, [.single 0 1, .single 1 1]⟩ := by
      unfold calcStep
      simp only [e2]
      rw [m2]
      rfl
    rw [calcFold_cons, s1, Option.bind_some, calcFold_cons, s2]
    rfl
  have := h two ⟨[e1], 2, [], 0⟩ ⟨[e1, e2], 2, [], 1⟩ [0] [1] [] [e1] 0 two_own (by
    intro e he
    rw [List.mem_singleton] at he
    subst he
    exact ⟨by simp [e1], by simp [e1], rfl⟩) rfl rfl rfl rfl [([1], 1)] (fun _ => 1) _ _ 1 1 (fun _ => ⟨one_pos, le_rfl⟩) hfold rfl
  have h0 : getMeasurement [.single 0 1, .single 1 1] 0 = some (0, 1) := rfl
  rw [h0] at this
  simp at this

end Verif.Props
