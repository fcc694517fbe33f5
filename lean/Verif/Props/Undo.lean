import Verif.Props.Client
import Verif.Props.Sub
import Verif.Proofs.Undo

/-!
# Property C101: the inverses of all functions of programs

C39 and C41 are about circuits with suitable elements and functions that act alike in all builders. The functions of programs
(C98) make such circuits, so for all of them it is known what `inverter` and `#[invert]` do.
-/

namespace Verif.Props
open Rooted

/-- the circuit has a measurement -/
def Measures (sc : Pipeline) : Prop := ∃ e ∈ sc, ∃ t, e.2.object = .meas t

/-- C101: the circuit that a function of a program makes is turned around, unless it has a measurement, which gives an `Err`;
there is no panic. With rotations of single qubits (see C34) the circuits are inverse to each other, and so are the global phases. -/
theorem C101_inverse {f : List Reg → M LocalBuilder (List Reg)} (hf : Client Apt 0 f) {sizes : List ℕ} {sc : Pipeline}
    (hb : buildSub sizes f = .ok sc) :
    ∃ n, (∀ e ∈ sc, Placed n e ∧ Apt e.2) ∧ (Measures sc → invertSub sc = .error .error) ∧
      (¬ Measures sc → ∃ inv, invertSub sc = .ok inv ∧ (∀ e ∈ inv, Placed n e ∧ Apt e.2) ∧ ¬ Measures inv ∧
        ((∀ e ∈ sc, ∀ ρ, e.2.object = .unitary (.Rz ρ) → e.1.length = 1) →
          (∀ ψ, runW rotAngle inv (runW rotAngle sc ψ) = ψ ∧ runW rotAngle sc (runW rotAngle inv ψ) = ψ) ∧
            phases rotAngle sc * phases rotAngle inv = 1)) := by
  letI := Stock.apt
  obtain ⟨n, hn⟩ := hf.built (fun _ h => h) hb
  obtain ⟨h1, h2⟩ := invertSub_apt n sc hn
  refine ⟨n, hn, h1, fun hm => ?_⟩
  have hm' : ∀ e ∈ sc, ∀ t, e.2.object ≠ .meas t := fun e he t ht => hm ⟨e, he, t, ht⟩
  obtain ⟨inv, i1, i2, -⟩ := h2 hm'
  refine ⟨inv, i1, fun e he => ⟨(i2 e he).1, (i2 e he).2.1⟩, ?_, fun hr => ?_⟩
  · rintro ⟨e, he, t, ht⟩
    obtain ⟨u, hu⟩ := (i2 e he).2.2
    rw [ht] at hu
    cases hu
  · obtain ⟨inv', j1, -, j3, j4⟩ := C39_inverse rotAngle rotAngle_neg n sc (fun e he => by
      obtain ⟨⟨a1, a2, a3, a4⟩, hA⟩ := hn e he
      cases ho : e.2.object with
      | meas t => exact absurd ho (hm' e he t)
      | unitary u =>
        refine ⟨⟨a2, a3, fun v hv => ?_⟩, a4, u, ho⟩
        rw [ho] at hv
        cases hv
        obtain ⟨ρ, rfl⟩ | ⟨hs, -⟩ := hA u ho
        · exact hr e he ρ ho
        · rw [← a4]; exact hs) (fun e he data hd => by
      obtain ⟨⟨a1, a2, a3, a4⟩, hA⟩ := hn e he
      obtain ⟨ρ, e'⟩ | ⟨-, hu⟩ := hA _ hd
      · cases e'
      · have := hu data rfl
        rw [a4] at this
        exact this)
    rw [i1] at j1
    cases j1
    exact ⟨j3, j4⟩

/-- C101: `inverter` and `#[invert]` fail as the function does that is to be inverted, at any depth of conditions; nothing is
added to the circuit. -/
theorem C101_fails (f : List Reg → M LocalBuilder (List Reg)) (k : ℕ) (s : NB k) (rs : List Reg) (x : Fail)
    (hb : buildSub (rs.map List.length) f = .error x) :
    inverter rs f s = .error x s ∧ invertFn f rs s = .error x s := inverter_build_err hb s

/-- C101: a function of a program that measures cannot be inverted, at any depth of conditions: an `Err`, and nothing is added
to the circuit. -/
theorem C101_measures {f : List Reg → M LocalBuilder (List Reg)} (hf : Client Apt 0 f) (k : ℕ) (s : NB k) (rs others : List Reg)
    (h : Sound k s (rs ++ others)) (hne : rs ≠ []) (sc : Pipeline) (hb : buildSub (rs.map List.length) f = .ok sc)
    (hm : Measures sc) : inverter rs f s = .error .error s ∧ invertFn f rs s = .error .error s := by
  letI := NB.sim k
  obtain ⟨n, -, h1, -⟩ := C101_inverse hf hb
  refine inverter_err hne (fun r hr => h.nonempty r (by simp [hr])) hb ?_
  unfold applyInverted
  rw [h1 hm]
  rfl

/-- the circuit reaches the last of `m` qubits, or goes beyond -/
def Reaches (sc : Pipeline) (m : ℕ) : Prop := ∃ e ∈ sc, ∃ q ∈ e.1, m ≤ q + 1

/-- C101: a function of a program that does not measure and works on the last qubit of its registers or on further qubits (C40)
is inverted: the inverse circuit is added, on the registers followed by temporaries `t`, which were in the pool or are new,
are distinct from all other qubits and end up in the pool. -/
theorem C101_inverts {f : List Reg → M LocalBuilder (List Reg)} (hf : Client Apt 0 f) (s : LocalBuilder) (rs others : List Reg)
    (h : Sound 0 s (rs ++ others)) (hne : rs ≠ []) (sc : Pipeline) (hb : buildSub (rs.map List.length) f = .ok sc)
    (hm : ¬ Measures sc) (ht : Reaches sc (rs.map List.length).sum) :
    ∃ inv t s', invertSub sc = .ok inv ∧ inverter rs f s = .ok rs s' ∧ invertFn f rs s = .ok rs s' ∧
      s'.pipeline = s.pipeline ++ rename (rs.flatten ++ t) inv ∧ (∀ e ∈ inv, ∀ q ∈ e.1, q < (rs.flatten ++ t).length) ∧
      (rs.flatten ++ t ++ others.flatten).Nodup ∧ (∀ q ∈ t, q ∈ s.zeroedQubits.flatten ∨ s.n ≤ q) ∧
      (∀ q ∈ t, q ∈ s'.zeroedQubits.flatten) ∧ Sound 0 s' (rs ++ others) := by
  letI := Stock.apt
  obtain ⟨n, hn⟩ := hf.built (fun _ h => h) hb
  obtain ⟨inv, i1, i2, i3⟩ := (invertSub_apt n sc hn).2 fun e he t ht => hm ⟨e, he, t, ht⟩
  have hr : ∀ r ∈ rs, r ≠ [] := fun r hr => h.nonempty r (by simp [hr])
  have hfl : rs.flatten ≠ [] := by
    cases rs with
    | nil => exact absurd rfl hne
    | cons r rs => have := hr r (by simp); simp [this]
  have own : Own s (rs.flatten ++ others.flatten) := by
    have := h.own
    rw [← List.flatten_append]
    exact this
  obtain ⟨e, he, q, hq, hle⟩ := ht
  rw [← List.length_flatten] at hle
  obtain ⟨e', he', hq'⟩ := (i3 q).mpr ⟨e, he, hq⟩
  obtain ⟨m, m1, m2⟩ := maxIndex_of_touched ⟨e', he', hq'⟩
  obtain ⟨t, s', h1, h2, h3, h4, h5, h6, h7, h8, h9, h10, h11⟩ :=
    applySub_local hfl m1 (by omega) (fun e he => ⟨(i2 e he).1.1, (i2 e he).1.2.1, (i2 e he).1.2.2.2⟩) own
  have hnd : rs.flatten.Nodup := (List.nodup_append.mp own.left).1
  obtain ⟨g1, g2⟩ := inverter_of (β := LocalBuilder) hne hr hnd hb i1 h1
  refine ⟨inv, t, s', i1, g1, g2, h5, ?_, h3, h4, h10, ((C98_call (k := 0) (.invert hf) s rs others h).1 rs s' g2)⟩
  intro e he q hq
  have := ((maxIndex_iff inv m).mp m1).2 e he q hq
  rw [List.length_append]
  omega

/-- C101: if the function does not reach the last qubit of its registers (C40), inverting panics. -/
theorem C101_short {f : List Reg → M LocalBuilder (List Reg)} (hf : Client Apt 0 f) (s : LocalBuilder) (rs others : List Reg)
    (h : Sound 0 s (rs ++ others)) (hne : rs ≠ []) (sc : Pipeline) (hb : buildSub (rs.map List.length) f = .ok sc)
    (hm : ¬ Measures sc) (ht : ¬ Reaches sc (rs.map List.length).sum) :
    inverter rs f s = .error .panic s ∧ invertFn f rs s = .error .panic s := by
  letI := Stock.apt
  obtain ⟨n, hn⟩ := hf.built (fun _ h => h) hb
  obtain ⟨inv, i1, i2, i3⟩ := (invertSub_apt n sc hn).2 fun e he t ht => hm ⟨e, he, t, ht⟩
  have hr : ∀ r ∈ rs, r ≠ [] := fun r hr => h.nonempty r (by simp [hr])
  have hfl : rs.flatten ≠ [] := by
    cases rs with
    | nil => exact absurd rfl hne
    | cons r rs => have := hr r (by simp); simp [this]
  have own : Own s (rs.flatten ++ others.flatten) := by
    have := h.own
    rw [← List.flatten_append]
    exact this
  refine inverter_err (β := LocalBuilder) hne hr hb ?_
  unfold applyInverted
  rw [i1]
  refine C40_panics s inv rs.flatten hfl (List.nodup_append.mp own.left).1 fun e he q hq => ?_
  by_contra hc
  obtain ⟨e', he', hq'⟩ := (i3 q).mp ⟨e, he, hq⟩
  exact ht ⟨e', he', q, hq', by rw [← List.length_flatten]; omega⟩

/-- C101: when inverting a function of a program panics on a builder without conditions: when the function itself does in a new
builder, when there are no registers, or when the function does not measure and does not reach the last qubit. -/
theorem C101_panics {f : List Reg → M LocalBuilder (List Reg)} (hf : Client Apt 0 f) (s : LocalBuilder) (rs others : List Reg)
    (h : Sound 0 s (rs ++ others)) :
    ((∃ s', inverter rs f s = .error .panic s') ↔
      buildSub (rs.map List.length) f = .error .panic ∨
        ∃ sc, buildSub (rs.map List.length) f = .ok sc ∧ (rs = [] ∨ (¬ Measures sc ∧ ¬ Reaches sc (rs.map List.length).sum))) ∧
    ((∃ s', invertFn f rs s = .error .panic s') ↔ ∃ s', inverter rs f s = .error .panic s') := by
  cases hb : buildSub (rs.map List.length) f with
  | error x =>
    obtain ⟨h1, h2⟩ := C101_fails f 0 s rs x hb
    have h1 : inverter rs f s = .error x s := h1
    have h2 : invertFn f rs s = .error x s := h2
    rw [h1, h2]
    cases x <;> simp
  | ok sc =>
    by_cases hne : rs = []
    · subst hne
      obtain ⟨h1, h2⟩ := inverter_nil (β := LocalBuilder) hb s
      rw [h1, h2]
      simp
    · by_cases hm : Measures sc
      · obtain ⟨h1, h2⟩ := C101_measures hf 0 s rs others h hne sc hb hm
        have h1 : inverter rs f s = .error .error s := h1
        have h2 : invertFn f rs s = .error .error s := h2
        rw [h1, h2]
        simp [hne, hm]
      · by_cases ht : Reaches sc (rs.map List.length).sum
        · obtain ⟨inv, t, s', -, h1, h2, -⟩ := C101_inverts hf s rs others h hne sc hb hm ht
          rw [h1, h2]
          simp [hne, ht]
        · obtain ⟨h1, h2⟩ := C101_short hf s rs others h hne sc hb hm ht
          rw [h1, h2]
          simp [hm, ht]

/-- C101: a function of a program with gates as in the textbook that returns its temporaries to 0 (in a new builder) is undone by
its inverse: that acts on the registers as `W`, where `W` and the action `V` of the function's own circuit are inverse to each
other. -/
theorem C101_undoes {f : List Reg → M LocalBuilder (List Reg)} (hf : Client Apt 0 f) (s : LocalBuilder) (rs others : List Reg)
    (h : Sound 0 s (rs ++ others)) (hne : rs ≠ []) (sc : Pipeline) (hb : buildSub (rs.map List.length) f = .ok sc)
    (hm : ¬ Measures sc) (ht : Reaches sc (rs.map List.length).sum) (hx : ∀ e ∈ sc, Textbook e)
    (hc : ∀ z : Asg, (∀ i, rs.flatten.length ≤ i → z i = false) →
      ∀ y ∈ (runW rotAngle sc (ket z)).support, ∀ i, rs.flatten.length ≤ i → y i = false) :
    ∃ W : Asg → Wave,
      Does rotAngle (inverter rs f) s rs (rs.flatten ++ others.flatten) (moveW rs.flatten W) ∧
      Does rotAngle (invertFn f rs) s rs (rs.flatten ++ others.flatten) (moveW rs.flatten W) ∧
      ∀ x, lift (moveW rs.flatten W) (moveW rs.flatten (fun z => runW rotAngle sc (ket z)) x) = ket x ∧
        lift (moveW rs.flatten fun z => runW rotAngle sc (ket z)) (moveW rs.flatten W x) = ket x := by
  letI := Stock.apt
  obtain ⟨n, hn⟩ := hf.built (fun _ h => h) hb
  have hsc : ∀ e ∈ sc, SegU n e := by
    intro e he
    obtain ⟨⟨a1, a2, a3, a4⟩, hA⟩ := hn e he
    obtain ⟨x1, x2, x3⟩ := hx e he
    cases ho : e.2.object with
    | meas t => exact absurd ⟨e, he, t, ho⟩ hm
    | unitary u =>
      refine ⟨⟨⟨a2, a3, fun v hv => ?_⟩, a4, u, ho, fun ρ hρ => x2 ρ (by rw [ho, hρ])⟩, fun data hd => ?_⟩
      · rw [ho] at hv
        cases hv
        obtain ⟨ρ, rfl⟩ | ⟨hs, -⟩ := hA u ho
        · exact x1 ρ ho
        · rw [← a4]; exact hs
      · obtain ⟨ρ, e'⟩ | ⟨-, hu⟩ := hA _ hd
        · cases e'
        · have := hu data rfl
          rw [a4] at this
          exact this
  obtain ⟨inv, i1, -, i3, i4, -, i6⟩ := invertSub_ok rotAngle_neg n sc fun e he =>
    ⟨(hsc e he).1.1, (hsc e he).1.2.1, (hsc e he).1.2.2.choose, (hsc e he).1.2.2.choose_spec.1⟩
  have i6 := i6 fun e he => (hsc e he).2
  have hr : ∀ r ∈ rs, r ≠ [] := fun r hr => h.nonempty r (by simp [hr])
  have hfl : rs.flatten ≠ [] := by
    cases rs with
    | nil => exact absurd rfl hne
    | cons r rs => have := hr r (by simp); simp [this]
  have own : Own s (rs.flatten ++ others.flatten) := by
    have := h.own
    rw [← List.flatten_append]
    exact this
  have hnd : rs.flatten.Nodup := (List.nodup_append.mp own.left).1
  have hA : ∀ z ∈ Low rs.flatten.length, On (Low rs.flatten.length) (runW rotAngle sc (ket z)) := fun z hz =>
    on_iff.mpr (hc z hz)
  have hB := inverse_on (Low rs.flatten.length) (low_finite _) (runW rotAngle sc) (runW rotAngle inv) (fun ψ => (i6 ψ).1) hA
  obtain ⟨e, he, q, hq, hle⟩ := ht
  rw [← List.length_flatten] at hle
  obtain ⟨e', he', hq'⟩ := (i4 q).mpr ⟨e, he, hq⟩
  obtain ⟨m, m1, m2⟩ := maxIndex_of_touched ⟨e', he', hq'⟩
  obtain ⟨s', d1, d2⟩ := applySub_does (ang := rotAngle) hfl m1 (by omega) (i3 hsc) own (fun z => runW rotAngle inv (ket z))
    fun z hz => ⟨rfl, hB z hz⟩
  obtain ⟨g1, g2⟩ := inverter_of (β := LocalBuilder) hne hr hnd hb i1 d1
  refine ⟨fun z => runW rotAngle inv (ket z), ⟨s', g1, d2⟩, ⟨s', g2, d2⟩, fun x => ⟨?_, ?_⟩⟩
  · rw [lift_move _ hnd (fun z => runW rotAngle sc (ket z)) (fun z => runW rotAngle inv (ket z)) x (hA _ (pull_low _ x)), moveW_eq,
      (hA _ (pull_low _ x)).agree (A := lift fun z => runW rotAngle inv (ket z)) (B := runW rotAngle inv) fun y _ => by
        rw [lift_ket], (i6 _).1, embW_ket, emb_pull]
  · rw [lift_move _ hnd (fun z => runW rotAngle inv (ket z)) (fun z => runW rotAngle sc (ket z)) x (hB _ (pull_low _ x)), moveW_eq,
      (hB _ (pull_low _ x)).agree (A := lift fun z => runW rotAngle sc (ket z)) (B := runW rotAngle sc) fun y _ => by
        rw [lift_ket], (i6 _).2, embW_ket, emb_pull]

/-! ## examples -/

/-- three qubits, one of them a temporary in the pool -/
def pooled : LocalBuilder := ⟨[], 3, [[2]], 0⟩

theorem pooled_sound : Sound 0 pooled ([[1], [0]] ++ []) :=
  ⟨(⟨by simp [pooled], by simp [pooled], by simp [pooled]⟩ : Own pooled [1, 0]), by simp [NB.conds], fun e he => by cases he⟩

/-- `cnot` -/
theorem cnot_client (k : ℕ) : Client Apt k (Method.run .cnot) := .method .cnot trivial (by simp [Method.objects])

theorem cnot_built : buildSub [1, 1] (Method.run .cnot) = .ok [([0, 1], ⟨2, .unitary .CNOT⟩)] := rfl

theorem cnot_measures : ¬ Measures [([0, 1], ⟨2, .unitary .CNOT⟩)] := by
  rintro ⟨e, he, t, ht⟩
  rw [List.mem_singleton.mp he] at ht
  cases ht

example : ∃ inv t s', invertSub [([0, 1], ⟨2, .unitary .CNOT⟩)] = .ok inv ∧
    inverter [[1], [0]] (Method.run .cnot) pooled = .ok [[1], [0]] s' ∧ s'.pipeline = rename ([1, 0] ++ t) inv := by
  obtain ⟨inv, t, s', h1, h2, -, h3, -⟩ := C101_inverts (cnot_client 0) pooled [[1], [0]] [] pooled_sound (by simp) _ cnot_built
    cnot_measures ⟨_, List.mem_singleton.mpr rfl, 1, by simp, by simp⟩
  exact ⟨inv, t, s', h1, h2, h3⟩

example : ∃ W : Asg → Wave, Does rotAngle (inverter [[1], [0]] (Method.run .cnot)) pooled [[1], [0]] [1, 0] (moveW [1, 0] W) := by
  obtain ⟨W, h1, -⟩ := C101_undoes (cnot_client 0) pooled [[1], [0]] [] pooled_sound (by simp) _ cnot_built
    cnot_measures ⟨_, List.mem_singleton.mpr rfl, 1, by simp, by simp⟩
    (fun e he => by
      rw [List.mem_singleton.mp he]
      exact ⟨fun ρ hρ => (by cases hρ), fun ρ hρ => (by cases hρ), fun hρ => (by cases hρ)⟩)
    (fun z hz => on_iff.mp (On.run rotAngle (On.ket (S := Low 2) hz) _ fun e he y hy c => by
      rw [List.mem_singleton.mp he]
      intro i hi
      show writeQ [0, 1] c y i = false
      rw [writeQ_not_mem _ _ _ _ (by simp; omega)]
      exact hy i hi))
  exact ⟨W, h1⟩

/-- X on the first register -/
noncomputable def firstX (rs : List Reg) : M LocalBuilder (List Reg) := do
  let out ← Method.run (.named .x) (rs.take 1)
  pure (out ++ rs.drop 1)

theorem firstX_client : Client Apt 0 firstX :=
  .on (k := 0) (fun rs => (rs.take 1, rs.drop 1)) (fun rs => by rw [List.take_append_drop])
    (.method (.named .x) trivial (by simp [Method.objects]))

/-- of two registers: the circuit does not reach the last qubit -/
example : inverter [[1], [0]] firstX pooled = .error .panic pooled := by
  refine (C101_short firstX_client pooled [[1], [0]] [] pooled_sound (by simp) [([0], ⟨1, .unitary .X⟩)] rfl ?_ ?_).1
  · rintro ⟨e, he, t, ht⟩
    rw [List.mem_singleton.mp he] at ht
    cases ht
  · rintro ⟨e, he, q, hq, hle⟩
    rw [List.mem_singleton.mp he] at hq
    rw [List.mem_singleton.mp hq] at hle
    simp at hle

/-- measuring cannot be inverted, here inside two conditions -/
example : inverter [[2]] (LocalMethod.run .measure) deep = .error .error deep :=
  (C101_measures (.onLocal .measure) 2 deep [[2]] [] (deep_session Apt).sound (by simp) [([0], ⟨1, .meas .measurement⟩)] rfl
    ⟨_, List.mem_singleton.mpr rfl, _, rfl⟩).1

/-- a function that returns an `Err`: `swap` of registers of different sizes -/
example : inverter [[1, 2], [0]] (Method.run .swap) pooled = .error .error pooled :=
  (C101_fails (Method.run .swap) 0 pooled [[1, 2], [0]] .error rfl).1

example : ∃ s', inverter [] (Method.run (.register 2)) pooled = .error .panic s' := by
  have h : Sound 0 pooled ([] ++ []) := ⟨pooled_sound.own.sub (by simp [NB.conds]), by simp [NB.conds], pooled_sound.placed⟩
  exact (C101_panics (.method (.register 2) trivial (by simp [Method.objects])) pooled [] [] h).1.mpr (.inr ⟨_, rfl, .inl rfl⟩)

end Verif.Props
