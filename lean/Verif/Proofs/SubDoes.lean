import Verif.Proofs.SubApply
import Verif.Proofs.Nest

/-! # What applied subcircuits do -/

namespace Verif
open Classical Complex RegOps CircuitBuilder TempBuilder Rooted

variable {ang : Rot → ℝ}

/-- an element of a circuit which the builder, under the conditions `cs`, applies as the object `o` under these conditions -/
def Fit (ang : Rot → ℝ) (β : Type) [CircuitBuilder β] [Rooted β] (cs : List Reg) (e : List ℕ × CObj) (o : CObj) : Prop :=
  ∀ (R : Reg) (s : β) (L : List ℕ), ctl s = some cs → (at' R e.1).Nodup → Own (root s) (cs.flatten ++ at' R e.1 ++ L) →
    Does ang (applyCO (at' R e.1) e.2) s (at' R e.1) (cs.flatten ++ at' R e.1 ++ L)
      (ctlW cs.flatten (entryW ang (at' R e.1, o)))

theorem objects_id (sc : Pipeline) : objects id sc = sc := by simp [objects]

theorem shape_pos {k : ℕ} {u : UObj} (h : u.Shape k) : 0 < k := by
  cases u <;> simp only [UObj.Shape] at h <;> omega

theorem segOK_ne {n : ℕ} {e : List ℕ × CObj} (h : SegU n e) : e.1 ≠ [] := by
  obtain ⟨⟨⟨_, _, h3⟩, _, u, hu, _⟩, _⟩ := h
  have := shape_pos (h3 u hu)
  rintro h
  rw [h] at this
  simp at this

theorem fit_local {n : ℕ} {e : List ℕ × CObj} (h : SegU n e) : Fit ang LocalBuilder [] e e.2 := by
  intro R s L _ hn ho
  obtain ⟨⟨⟨_, _, h3⟩, h4, u, hu, hg⟩, h5⟩ := h
  have he : Emits (LocalBuilder.applyCO (at' R e.1) e.2) (at' R e.1) [(at' R e.1, e.2)] := by
    intro s
    have := applyCO_reg_emits (at' R e.1) e.2.object s
    rw [at_length, ← h4] at this
    exact this
  refine (he.does ang ho fun c hc => ?_).congrU fun x _ => ?_
  · rw [List.mem_singleton] at hc
    subst hc
    refine ⟨⟨⟨⟨hn, fun q hq => ho.mem_lt (by simp at hq ⊢; tauto), ?_⟩, by rw [h4]; exact (at_length R e.1).symm, u, hu, hg⟩,
      fun d hd => by rw [at_length]; exact h5 d hd⟩,
      fun q hq => by simp at hq ⊢; tauto⟩
    intro v hv
    simp only at hv ⊢
    rw [at_length]
    exact h3 v hv
  · rw [show ([] : List Reg).flatten = [] from rfl, ctlW_nil]
    rfl

section
variable {β : Type} [Conditionable β] [Rooted β] [Sim β]

theorem foldEntries_does (f : CObj → CObj) {cs : List Reg} {R : Reg} {L : List ℕ} (sc : Pipeline)
    (h : ∀ e ∈ sc, e.1 ≠ [] ∧ e.1.Nodup ∧ (∀ i ∈ e.1, i < R.length) ∧ Fit ang β cs e (f e.2)) (s : β) (hs : ctl s = some cs)
    (ho : Own (root s) (cs.flatten ++ R ++ L)) :
    Does ang (sc.foldlM applyEntry (slotsOf R [])) s (slotsOf R []) (cs.flatten ++ R ++ L)
      (ctlW cs.flatten (runW ang (rename R (objects f sc)))) := by
  have hR : R.Nodup := (List.nodup_append.mp (List.nodup_append.mp ho.left).1).2.1
  have hdis : ∀ d ∈ cs.flatten, d ∉ R := disj cs.flatten R L (root s) ho
  induction sc generalizing s with
  | nil =>
    refine (Does.pure ho _).congrU fun x _ => ?_
    unfold ctlW
    split <;> rfl
  | cons e sc ih =>
    obtain ⟨h1, h2, h3, h4⟩ := h e (by simp)
    rw [List.foldlM_cons]
    have hnd := at_nodup R hR e.1 h2 h3
    obtain ⟨R', hR'⟩ := own_front (at' R e.1) hnd (at_mem R e.1 h3) ho
    have hd : Does ang (applyEntry (slotsOf R []) e) s (slotsOf R []) (cs.flatten ++ R ++ L)
        (ctlW cs.flatten (entryW ang (at' R e.1, f e.2))) := by
      obtain ⟨s', k1, k2, k3, k4⟩ := h4 R s R' hs hnd (ho.perm hR')
      exact ⟨s', applyEntry_of hR h1 h2 h3 k1, k2, k3.perm hR'.symm, k4⟩
    refine (Does.bind hd fun s' hs' ho' => ih (fun e' he' => h e' (by simp [he'])) s' (hs'.trans hs) ho').congrU fun x _ => ?_
    refine ctlW_comp x ?_
    have hx0 : On {y | ∀ c ∈ cs.flatten, y c = x c} (ket x) := On.ket fun _ _ => rfl
    refine On.entry ang hx0 _ fun y hy c d hd' => ?_
    rw [writeQ_not_mem]
    · exact hy d hd'
    · exact fun hm => hdis d hd' (at_mem R e.1 h3 d hm)

/-- `apply_pipeline_objects`: the action `V` of the circuit, carried out on `r` -/
theorem applySub_sim (f : CObj → CObj) {s : β} {cs : List Reg} {L : List ℕ} {sc : Pipeline} {r : Reg} (hs : ctl s = some cs) (hr : r ≠ [])
    {m : ℕ} (hm : maxIndex sc = some m) (hk : r.length ≤ m + 1)
    (h : ∀ e ∈ sc, e.1 ≠ [] ∧ e.1.Nodup ∧ Fit ang β cs e (f e.2)) (ho : Own (root s) (cs.flatten ++ r ++ L)) (V : Asg → Wave)
    (hV : ∀ z, (∀ i, r.length ≤ i → z i = false) → runW ang (objects f sc) (ket z) = V z ∧ On {y | ∀ i, r.length ≤ i → y i = false} (V z)) :
    Does ang (applyPipelineObjects sc r) s r (cs.flatten ++ r ++ L)
      (fun x => if ∀ c ∈ cs.flatten, x c = true then moveW r V x else ket x) := by
  have hn : r.Nodup := (List.nodup_append.mp (List.nodup_append.mp ho.left).1).2.1
  have hlt : ∀ e ∈ sc, ∀ i ∈ e.1, i ≤ m := ((maxIndex_iff sc m).mp hm).2
  have hp : (cs.flatten ++ r ++ L).Perm (r ++ (cs.flatten ++ L)) := by
    rw [← List.append_assoc]
    exact List.perm_append_comm.append_right L
  have hp2 : ∀ t : Reg, (r ++ t ++ (cs.flatten ++ L)).Perm (cs.flatten ++ (r ++ t) ++ L) := by
    intro t
    rw [← List.append_assoc]
    exact List.perm_append_comm.append_right L
  have hfold : ∀ (t : Reg) (s1 : β), t.length = m + 1 - r.length → ctl s1 = ctl s →
      Own (root s1) (r ++ t ++ (cs.flatten ++ L)) → Does ang (sc.foldlM applyEntry (slotsOf (r ++ t) [])) s1
        (slotsOf (r ++ t) []) (cs.flatten ++ (r ++ t) ++ L) (ctlW cs.flatten (runW ang (rename (r ++ t) (objects f sc)))) := by
    intro t s1 ht hs1 ho1
    refine foldEntries_does f sc (fun e he => ⟨(h e he).1, (h e he).2.1, fun i hi => ?_, (h e he).2.2⟩) s1 (hs1.trans hs)
      (ho1.perm (hp2 t))
    have := hlt e he i hi
    simp only [List.length_append]
    omega
  obtain ⟨t, s1, s2, s3, h1, h2, h3, h4, h5, h6, h7, h8, h9, k1, k2, k3, k4, k5, k6, k7, k8⟩ :=
    pipeline_run (s := s) hr hn hm hk (ho.perm hp) (by
      intro t s1 ht hs1 ho1 _ _ _ _ _
      obtain ⟨s2, e1, _, e3, _⟩ := hfold t s1 ht hs1 ho1
      exact ⟨s2, e1, e3.perm (hp2 t).symm⟩)
  have hnt : (r ++ t).Nodup := (List.nodup_append.mp h3.left).1
  obtain ⟨s2', e1, e2, e3, e4⟩ := hfold t s1 h1 h2 h3
  rw [e1] at h9
  injection h9 with _ h9
  subst h9
  refine ⟨s3, k1, k2.trans (e2.trans h2), k3.perm hp.symm, by rw [k5]; exact le_trans h5 e4.n_le,
    k6.trans (e4.meas.trans h6), ?_⟩
  obtain ⟨seg, g1, g2, g3⟩ := e4.seg
  refine ⟨seg, by rw [k4, g1, h4], by rw [k5]; exact g2, fun x hx => ?_⟩
  obtain ⟨c1, c2⟩ := h8 x hx
  obtain ⟨c3, c4⟩ := g3 x c1
  have hmove : runW ang (rename (r ++ t) (objects f sc)) (ket x) = moveW r V x := by
    rw [run_rename_ket (r ++ t) hnt (objects f sc)]
    · have hz : ∀ i, r.length ≤ i → pull r x i = false := fun i hi => by unfold pull; rw [if_neg (by omega)]
      rw [move_append r t _ x c2]
      · rw [moveW_eq, moveW_eq, (hV _ hz).1]
      · rw [(hV _ hz).1]; exact (hV _ hz).2
    · intro e' he'
      obtain ⟨e, he, rfl⟩ := List.mem_map.mp he'
      refine ⟨(h e he).2.1, fun i hi => ?_⟩
      have := hlt e he i hi
      simp only [List.length_append]
      omega
  have heq : ctlW cs.flatten (runW ang (rename (r ++ t) (objects f sc))) x =
      if ∀ c ∈ cs.flatten, x c = true then moveW r V x else ket x := by
    unfold ctlW
    rw [hmove]
  rw [heq] at c3 c4
  refine ⟨c3, fun y hy => k8 y (c4 y hy) ?_⟩
  have hon : On {y | ∀ q, q ∉ r → y q = x q} (if ∀ c ∈ cs.flatten, x c = true then moveW r V x else ket x) := by
    split
    · exact move_on r V x
    · exact On.ket fun _ _ => rfl
  intro q hq
  rw [on_iff.mp hon y hy q fun hqr => List.disjoint_of_nodup_append hnt hqr hq, c2 q hq]

end

theorem applySub_does {s : LocalBuilder} {L : List ℕ} {sc : Pipeline} {r : Reg} (hr : r ≠ []) {m n : ℕ}
    (hm : maxIndex sc = some m) (hk : r.length ≤ m + 1) (h : ∀ e ∈ sc, SegU n e) (ho : Own s (r ++ L)) (V : Asg → Wave)
    (hV : ∀ z, (∀ i, r.length ≤ i → z i = false) → runW ang sc (ket z) = V z ∧ On {y | ∀ i, r.length ≤ i → y i = false} (V z)) :
    Does ang (applyPipelineObjects sc r) s r (r ++ L) (moveW r V) := by
  refine (applySub_sim id (cs := []) (L := L) rfl hr hm hk (fun e he => ⟨segOK_ne (h e he), (h e he).1.1.1, fit_local (h e he)⟩) ho V
    (by rw [objects_id]; exact hV)).congrU fun x _ => ?_
  rw [if_pos (by simp)]

end Verif
