import Verif.Proofs.Inverse

/-!
# Inverse circuits, continued
-/

namespace Verif
open Complex Finset Classical

variable {ang : Rot → ℝ}

theorem invertSub_nil : invertSub [] = .ok [] := rfl

theorem invertSub_cons (e : List ℕ × CObj) (sc : Pipeline) :
    invertSub (e :: sc) = (do
      let p ← invertSub sc
      let cos ← invertObject e.2
      pure (p ++ cos.map fun co => (e.1, co))) := by
  unfold invertSub
  rw [List.reverse_cons, List.foldlM_append]
  simp only [List.foldlM_cons, List.foldlM_nil, bind_pure]

theorem phases_append (p q : Pipeline) : phases ang (p ++ q) = phases ang p * phases ang q := by
  induction p with
  | nil => simp [phases]
  | cons e p ih => simp only [List.cons_append, phases, ih, mul_assoc]

theorem phases_cons (e : List ℕ × CObj) (p : Pipeline) : phases ang (e :: p) = phases ang [e] * phases ang p :=
  phases_append [e] p

/-- the inverse of a circuit without measurements -/
theorem invertSub_ok (hang : ∀ ρ, ang (Rot.neg ρ) = -ang ρ) (n : ℕ) (sc : Pipeline) (h : ∀ e ∈ sc, SubOK n e) :
    ∃ p, invertSub sc = .ok p ∧ (∀ e ∈ p, SubOK n e) ∧ ((∀ e ∈ sc, SegU n e) → ∀ e ∈ p, SegU n e) ∧
      (∀ q, (∃ e ∈ p, q ∈ e.1) ↔ ∃ e ∈ sc, q ∈ e.1) ∧ phases ang sc * phases ang p = 1 ∧
      (UnitaryMats sc → ∀ ψ, runW ang p (runW ang sc ψ) = ψ ∧ runW ang sc (runW ang p ψ) = ψ) := by
  induction sc with
  | nil => exact ⟨[], rfl, by simp, by simp, by simp, by simp [phases], fun _ ψ => ⟨rfl, rfl⟩⟩
  | cons e sc ih =>
    obtain ⟨p, p1, p2, p3, p4, p5, p6⟩ := ih fun e' he' => h e' (by simp [he'])
    obtain ⟨⟨e1, e2, e3⟩, e4, u, e5⟩ := h e (by simp)
    have hs : u.Shape e.2.n := by rw [e4]; exact e3 u e5
    obtain ⟨us, i1, i2, i3, i4, i4', i5, i6⟩ := invertObject_ok hang e.2.n u hs
    have hobj : e.2 = ⟨e.2.n, .unitary u⟩ := by rw [← e5]
    have he : e = (e.1, ⟨e.2.n, .unitary u⟩) := by rw [← e5]
    rw [← hobj] at i1
    set cs : Pipeline := (us.map fun u => (⟨e.2.n, .unitary u⟩ : CObj)).map fun co => (e.1, co) with hcs
    have hmem : ∀ c ∈ cs, c.1 = e.1 ∧ c.2.n = e.2.n ∧ ∃ v ∈ us, c.2.object = .unitary v := by
      intro c hc
      simp only [hcs, List.mem_map] at hc
      obtain ⟨co, ⟨v, hv, rfl⟩, rfl⟩ := hc
      exact ⟨rfl, rfl, v, hv, rfl⟩
    have hok : ∀ c ∈ cs, SubOK n c := by
      intro c hc
      obtain ⟨c1, c2, v, c3, c4⟩ := hmem c hc
      refine ⟨⟨by rw [c1]; exact e1, by rw [c1]; exact e2, ?_⟩, by rw [c1, c2]; exact e4, v, c4⟩
      intro w hw
      rw [c4] at hw
      injection hw with hw
      subst hw
      rw [c1, ← e4]
      exact i3 v c3
    have hne : cs ≠ [] := by simpa [hcs] using i2
    have hrun : runW ang cs = gateW e.1 (dag (uMat ang e.1.length u)) := by rw [i5 e.1 e4.symm e1, e4]
    refine ⟨p ++ cs, ?_, ?_, ?_, ?_, ?_, ?_⟩
    · rw [invertSub_cons, p1, i1]; rfl
    · intro c hc
      rcases List.mem_append.mp hc with hc | hc
      · exact p2 c hc
      · exact hok c hc
    · intro hseg c hc
      rcases List.mem_append.mp hc with hc | hc
      · exact p3 (fun e' he' => hseg e' (by simp [he'])) c hc
      · obtain ⟨⟨-, -, w, w1, w2⟩, hmu⟩ := hseg e (by simp)
        rw [e5] at w1
        injection w1 with w1
        subst w1
        obtain ⟨c1, c2, v, c3, c4⟩ := hmem c hc
        refine ⟨⟨(hok c hc).1, (hok c hc).2.1, v, c4, i4 w2 v c3⟩, fun data hd => ?_⟩
        have hu : IsUnitary e.2.n (uMat ang e.2.n u) := by
          refine uMat_unitary ang _ u hs ?_
          rintro data rfl
          rw [e4]
          exact hmu data e5
        have := i4' hu v c3
        rw [c4] at hd
        injection hd with hd
        subst hd
        rw [c1, ← e4]
        exact this
    · intro q
      constructor
      · rintro ⟨c, hc, hq⟩
        rcases List.mem_append.mp hc with hc | hc
        · obtain ⟨e', he', hq'⟩ := (p4 q).mp ⟨c, hc, hq⟩
          exact ⟨e', by simp [he'], hq'⟩
        · exact ⟨e, by simp, (hmem c hc).1 ▸ hq⟩
      · rintro ⟨e', he', hq⟩
        rcases List.mem_cons.mp he' with rfl | he'
        · obtain ⟨c, hc⟩ := List.exists_mem_of_ne_nil _ hne
          exact ⟨c, by simp [hc], (hmem c hc).1 ▸ hq⟩
        · obtain ⟨c, hc, hq'⟩ := (p4 q).mpr ⟨e', he', hq⟩
          exact ⟨c, by simp [hc], hq'⟩
    · rw [phases_append, phases_cons]
      have := i6 e.1
      rw [← he] at this
      calc phases ang [e] * phases ang sc * (phases ang p * phases ang cs) =
          (phases ang [e] * phases ang cs) * (phases ang sc * phases ang p) := by ring
        _ = 1 := by rw [this, p5, one_mul]
    · intro hm ψ
      have hent : ∀ φ, entryW ang e φ = gateW e.1 (uMat ang e.1.length u) φ := by
        intro φ
        unfold entryW
        rw [e5]
      have hu : IsUnitary e.1.length (uMat ang e.1.length u) := by
        apply uMat_unitary ang _ u (by rw [← e4]; exact hs)
        rintro data rfl
        exact hm e (by simp) data e5
      have p6' := p6 fun e' he' => hm e' (by simp [he'])
      constructor
      · rw [runW_append, runW_cons, (p6' _).1, hent, hrun, gateW_dag e.1 e1 _ hu]
      · rw [runW_append, runW_cons, hent, hrun, gateW_dag' e.1 e1 _ hu, (p6' _).2]

/-- a circuit with a measurement has no inverse -/
theorem invertSub_meas (n : ℕ) (sc : Pipeline) (h : ∀ e ∈ sc, EntryOK n e ∧ e.2.n = e.1.length)
    (hm : ∃ e ∈ sc, ∃ t, e.2.object = .meas t) : invertSub sc = .error .error := by
  induction sc with
  | nil => obtain ⟨e, he, _⟩ := hm; simp at he
  | cons e sc ih =>
    rw [invertSub_cons]
    by_cases hsc : ∃ e ∈ sc, ∃ t, e.2.object = .meas t
    · rw [ih (fun e' he' => h e' (by simp [he'])) hsc]; rfl
    · obtain ⟨p, hp, -⟩ := invertSub_ok (ang := fun ρ => match ρ with | .floating x => x | .piRational q => (q : ℝ))
        (by intro ρ; cases ρ <;> simp [Rot.neg]) n sc (by
        intro e' he'
        refine ⟨(h e' (by simp [he'])).1, (h e' (by simp [he'])).2, ?_⟩
        cases ho : e'.2.object with
        | unitary u => exact ⟨u, rfl⟩
        | meas t => exact absurd ⟨e', he', t, ho⟩ hsc)
      obtain ⟨e', he', t, ht⟩ := hm
      rcases List.mem_cons.mp he' with rfl | he'
      · rw [hp]
        unfold invertObject
        rw [ht]
        rfl
      · exact absurd ⟨e', he', t, ht⟩ hsc

/-- the largest index -/
theorem maxIndex_iff (sc : Pipeline) (k : ℕ) :
    maxIndex sc = some k ↔ (∃ e ∈ sc, k ∈ e.1) ∧ ∀ e ∈ sc, ∀ q ∈ e.1, q ≤ k := by
  unfold maxIndex
  rw [List.max?_eq_some_iff]
  simp only [List.mem_filterMap]
  constructor
  · rintro ⟨⟨e, he, hk⟩, h2⟩
    refine ⟨⟨e, he, List.max?_mem hk⟩, fun e' he' q hq => ?_⟩
    cases hm : e'.1.max? with
    | none => rw [List.max?_eq_none_iff] at hm; rw [hm] at hq; simp at hq
    | some m => exact le_trans ((List.max?_eq_some_iff.mp hm).2 q hq) (h2 m ⟨e', he', hm⟩)
  · rintro ⟨⟨e, he, hk⟩, h2⟩
    refine ⟨⟨e, he, List.max?_eq_some_iff.mpr ⟨hk, h2 e he⟩⟩, ?_⟩
    rintro m ⟨e', he', hm⟩
    exact h2 e' he' m (List.max?_mem hm)

theorem maxIndex_congr (p sc : Pipeline) (h : ∀ q, (∃ e ∈ p, q ∈ e.1) ↔ ∃ e ∈ sc, q ∈ e.1) : maxIndex p = maxIndex sc := by
  apply Option.ext
  intro k
  rw [maxIndex_iff, maxIndex_iff, h k]
  have : (∀ e ∈ p, ∀ q ∈ e.1, q ≤ k) ↔ ∀ e ∈ sc, ∀ q ∈ e.1, q ≤ k := by
    constructor
    · intro H e he q hq
      obtain ⟨e', he', hq'⟩ := (h q).mpr ⟨e, he, hq⟩
      exact H e' he' q hq'
    · intro H e he q hq
      obtain ⟨e', he', hq'⟩ := (h q).mp ⟨e, he, hq⟩
      exact H e' he' q hq'
  rw [this]

end Verif
