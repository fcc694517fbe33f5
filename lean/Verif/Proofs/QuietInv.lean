import Verif.Proofs.ArithKinds

/-! # Inverses inside conditions that do not hold -/

namespace Verif
open Classical Complex RegOps CircuitBuilder TempBuilder Rooted

/-- a gate or a rotation about `z` -/
def Gentle (co : CObj) : Prop := Plain co ∨ ∃ ρ, co.object = .unitary (.Rz ρ)

/-- the factor a basis state gets when the conditions do not hold -/
noncomputable def idlePhase (sc : Pipeline) : ℂ := exp (-(rzSum sc / 2 : ℝ) * I)

theorem rzSum_cons (e : List ℕ × CObj) (sc : Pipeline) : rzSum (e :: sc) = rzSum [e] + rzSum sc := by
  unfold rzSum
  simp

theorem idlePhase_cons (e : List ℕ × CObj) (sc : Pipeline) : idlePhase (e :: sc) = idlePhase [e] * idlePhase sc := by
  unfold idlePhase
  rw [rzSum_cons, ← exp_add]
  congr 1
  push_cast
  ring

theorem idlePhase_nil : idlePhase [] = 1 := by simp [idlePhase, rzSum]

theorem plain_rz {e : List ℕ × CObj} (h : Plain e.2) : rzSum [e] = 0 :=
  (AllPlain.turns (p := [e]) (by simpa [AllPlain] using h)).2

theorem plain_condable {n : ℕ} {e : List ℕ × CObj} (h : SegU n e) (hp : Plain e.2) : Condable e := by
  obtain ⟨⟨⟨h1, _, h3⟩, _, _⟩, _⟩ := h
  refine ⟨h1, ?_⟩
  unfold Plain at hp
  split at hp <;> rename_i ho
  all_goals first
    | exact hp.elim
    | (have := h3 _ ho; exact .inl ⟨this, by simp [ho]⟩)
    | (have := h3 _ ho; exact .inr ⟨this, ho⟩)

section
variable {β : Type} [Conditionable β] [Rooted β] [Sim β] {cs : List Reg}

theorem fit_idle {n : ℕ} {e : List ℕ × CObj} (h : SegU n e) (hg : Gentle e.2) (hc : cs ≠ []) {R : Reg} {s : β} {L : List ℕ} (hs : ctl s = some cs)
    (hn : (at' R e.1).Nodup) (ho : Own (root s) (cs.flatten ++ at' R e.1 ++ L)) :
    DoesOn rotAngle (Idle cs) (applyCO (at' R e.1) e.2) s (at' R e.1) (cs.flatten ++ at' R e.1 ++ L) (fun x => idlePhase [e] • ket x) ∅ := by
  rcases hg with hg | ⟨ρ, hρ⟩
  · have := fit_condable (β := β) (plain_condable h hg) hc R s L hs hn ho
    refine this.on.congr (List.Perm.refl _) (fun x hx _ => ⟨trivial, ?_⟩) (fun _ h => h)
    have h0 : idlePhase [e] = 1 := by unfold idlePhase; rw [plain_rz hg]; simp
    rw [h0, one_smul]
    exact if_neg hx
  · have hfl := flatten_ne hs hc
    have hcn : cs.flatten.Nodup := (List.nodup_append.mp (List.nodup_append.mp ho.left).1).1
    have hr : at' R e.1 ≠ [] := by
      have := segOK_ne h
      simpa [at'] using this
    have h1 := condRz_does cs.flatten (at' R e.1) L (root s) hfl hr ho e.2.n ρ
    have h2 : (⟨e.2.n, .unitary (.Rz ρ)⟩ : CObj) = e.2 := by rw [← hρ]
    rw [h2] at h1
    have h3 := Does.of_root' h1 fun b hb => Sim.applyCO hs hc hcn hb
    refine h3.on.congr (List.Perm.refl _) (fun x hx _ => ⟨trivial, ?_⟩) (fun _ h => h)
    have h4 : ¬ ∀ c ∈ cs.flatten ++ at' R e.1, x c = true := fun hall => hx fun c hcm => hall c (List.mem_append_left _ hcm)
    rw [if_neg h4]
    unfold idlePhase rzSum
    simp [hρ]

theorem foldEntries_idle {n : ℕ} {R : Reg} {L : List ℕ} (hc : cs ≠ []) (sc : Pipeline)
    (h : ∀ e ∈ sc, SegU n e ∧ Gentle e.2 ∧ ∀ i ∈ e.1, i < R.length) (s : β) (hs : ctl s = some cs)
    (ho : Own (root s) (cs.flatten ++ R ++ L)) :
    DoesOn rotAngle (Idle cs) (sc.foldlM applyEntry (slotsOf R [])) s (slotsOf R []) (cs.flatten ++ R ++ L) (fun x => idlePhase sc • ket x) ∅ := by
  have hR : R.Nodup := (List.nodup_append.mp (List.nodup_append.mp ho.left).1).2.1
  induction sc generalizing s with
  | nil =>
    refine (DoesOn.pure ho _ _).congr (List.Perm.refl _) (fun x hx _ => ⟨hx, ?_⟩) (fun _ h => h)
    rw [idlePhase_nil, one_smul]
  | cons e sc ih =>
    obtain ⟨h1, h2, h3⟩ := h e (by simp)
    rw [List.foldlM_cons]
    have hnd := at_nodup R hR e.1 h1.1.1.1 h3
    obtain ⟨R', hR'⟩ := own_front (at' R e.1) hnd (at_mem R e.1 h3) ho
    have hd : DoesOn rotAngle (Idle cs) (applyEntry (slotsOf R []) e) s (slotsOf R []) (cs.flatten ++ R ++ L) (fun x => idlePhase [e] • ket x) ∅ := by
      obtain ⟨s', k1, k2⟩ := (fit_idle h1 h2 hc hs hnd (ho.perm hR')).congr hR'.symm (fun x hx _ => ⟨hx, rfl⟩) (fun _ h => h)
      exact ⟨s', applyEntry_of hR (segOK_ne h1) h1.1.1.1 h3 k1, k2⟩
    refine (hd.bind (fun x hx _ => (On.ket hx).smul _) (fun _ h => h) fun s' hs' ho' => ih (fun e' he' => h e' (by simp [he'])) s' (hs'.trans hs) ho').congr
      (List.Perm.refl _) (fun x hx _ => ⟨hx, ?_⟩) (by simp)
    rw [lift_smul, lift_ket, idlePhase_cons e sc, mul_smul]

/-- a circuit of gates and rotations about `z` adding up to zero, applied inside conditions that do not hold -/
theorem pipeline_idle {n : ℕ} {s : β} {L : List ℕ} {sc : Pipeline} {r : Reg} (hs : ctl s = some cs) (hc : cs ≠ []) (hr : r ≠ [])
    {m : ℕ} (hm : maxIndex sc = some m) (hk : r.length ≤ m + 1)
    (h : ∀ e ∈ sc, SegU n e ∧ Gentle e.2) (h0 : rzSum sc = 0) (ho : Own (root s) (cs.flatten ++ r ++ L)) :
    DoesOn rotAngle (Idle cs) (applyPipelineObjects sc r) s r (cs.flatten ++ r ++ L) ket ∅ := by
  have hn : r.Nodup := (List.nodup_append.mp (List.nodup_append.mp ho.left).1).2.1
  have hlt : ∀ e ∈ sc, ∀ i ∈ e.1, i ≤ m := ((maxIndex_iff sc m).mp hm).2
  have hp : (cs.flatten ++ r ++ L).Perm (r ++ (cs.flatten ++ L)) := by
    rw [← List.append_assoc]
    exact List.perm_append_comm.append_right L
  have hp2 : ∀ t : Reg, (r ++ t ++ (cs.flatten ++ L)).Perm (cs.flatten ++ (r ++ t) ++ L) := by
    intro t
    rw [← List.append_assoc]
    exact List.perm_append_comm.append_right L
  have hfold : ∀ (t : Reg) (s1 : β), t.length = m + 1 - r.length → ctl s1 = ctl s →
      Own (root s1) (r ++ t ++ (cs.flatten ++ L)) → DoesOn rotAngle (Idle cs) (sc.foldlM applyEntry (slotsOf (r ++ t) [])) s1
        (slotsOf (r ++ t) []) (cs.flatten ++ (r ++ t) ++ L) (fun x => idlePhase sc • ket x) ∅ := by
    intro t s1 ht hs1 ho1
    refine foldEntries_idle hc sc (fun e he => ⟨(h e he).1, (h e he).2, fun i hi => ?_⟩) s1 (hs1.trans hs)
      (ho1.perm (hp2 t))
    have := hlt e he i hi
    simp only [List.length_append]
    omega
  obtain ⟨t, s1, s2, s3, h1, h2, h3, h4, h5, h6, h7, h8, h9, k1, k2, k3, k4, k5, k6, k7, k8⟩ :=
    pipeline_run (s := s) hr hn hm hk (ho.perm hp) (by
      intro t s1 ht hs1 ho1 _ _ _ _ _
      obtain ⟨s2, e1, _, e3, _⟩ := hfold t s1 ht hs1 ho1
      exact ⟨s2, e1, e3.perm (hp2 t).symm⟩)
  obtain ⟨s2', e1, e2, e3, e4, e5, seg, g1, g2, -, g3⟩ := hfold t s1 h1 h2 h3
  rw [e1] at h9
  injection h9 with _ h9
  subst h9
  have hph : idlePhase sc = 1 := by unfold idlePhase; rw [h0]; simp
  refine ⟨s3, k1, k2.trans (e2.trans h2), k3.perm hp.symm, by rw [k5]; exact le_trans h5 e4,
    k6.trans (e5.trans h6), seg, by rw [k4, g1, h4], by rw [k5]; exact g2, by simp, fun x hx hcl => ?_⟩
  obtain ⟨c1, c2⟩ := h8 x hcl
  obtain ⟨c3, c4⟩ := g3 x hx c1
  simp only [hph, one_smul] at c3 c4
  exact ⟨c3, On.ket (k8 x (on_iff.mp c4 x (by simp [ket])) c2)⟩

end

theorem segU_rename {n N : ℕ} {R : Reg} (hR : R.Nodup) (hN : ∀ q ∈ R, q < N) {e : List ℕ × CObj} (h : SegU n e) (hl : ∀ i ∈ e.1, i < R.length) :
    SegU N (at' R e.1, e.2) := by
  obtain ⟨⟨⟨h1, h2, h3⟩, h4, u, hu, hg⟩, h5⟩ := h
  refine ⟨⟨⟨at_nodup R hR e.1 h1 hl, fun q hq => hN q (at_mem R e.1 hl q hq), fun v hv => ?_⟩, by rw [at_length]; exact h4, u, hu, hg⟩, fun d hd => ?_⟩
  · simp only [at_length]
    exact h3 v hv
  · simp only [at_length]
    exact h5 d hd

section
variable {β : Type} [Recursive β] [Rooted β] [SubSim β] {cs : List Reg}

theorem applySub_quiet {n : ℕ} {sc : Pipeline} {r : Reg} (hr : r ≠ []) {m : ℕ} (hm : maxIndex sc = some m) (hk : r.length ≤ m + 1)
    (h : ∀ e ∈ sc, SegU n e ∧ Gentle e.2) (h0 : rzSum sc = 0) : Quiet cs (Recursive.applySub sc r : M β Reg) r r ∅ := by
  intro s L hs ho
  have hlt : ∀ e ∈ sc, ∀ i ∈ e.1, i ≤ m := ((maxIndex_iff sc m).mp hm).2
  by_cases hc : cs = []
  · subst hc
    rw [List.flatten_nil, List.nil_append] at ho
    obtain ⟨t, b, k1, k2, k3, k4, k5, k6, k7, k8, k9, k10, -⟩ := applySub_local (s := root s) hr hm hk
      (fun e he => ⟨segOK_ne (h e he).1, (h e he).1.1.1.1, (h e he).1.1.2.1⟩) ho
    obtain ⟨s', g1, g2, g3⟩ := SubSim.sub_nil (β := β) (s := s) hs k1
    refine ⟨s', g1, g3, by rw [g2]; exact k9, by rw [g2]; exact k6, by rw [g2]; exact k8, _, by rw [g2]; exact k5, ?_, by simp, ?_⟩
    · rw [g2]
      intro e' he'
      obtain ⟨e, he, rfl⟩ := List.mem_map.mp he'
      refine segU_rename (List.nodup_append.mp k3).1 k7 (h e he).1 fun i hi => ?_
      have := hlt e he i hi
      simp only [List.length_append]
      omega
    · intro x hx
      exact absurd (by simp) hx
  · have hfl := flatten_ne hs hc
    have hcn : cs.flatten.Nodup := (List.nodup_append.mp (List.nodup_append.mp ho.left).1).1
    have hctl : ctl (⟨root s, some cs.flatten⟩ : Conditioned LocalBuilder) = some [cs.flatten] := conditioned_ctl rfl hfl
    have hff : ([cs.flatten] : List Reg).flatten = cs.flatten := by simp
    have h1 := pipeline_idle (β := Conditioned LocalBuilder) (s := ⟨root s, some cs.flatten⟩) (L := L) hctl (by simp) hr hm hk h h0 (by rw [hff]; exact ho)
    rw [hff] at h1
    obtain ⟨b, k1, -, k2⟩ := DoesOn.conditioned (β := LocalBuilder) (cs := []) rfl hfl h1
    have hb : Recursive.applyCondSub (β := LocalBuilder) sc cs.flatten r (root s) = .ok (cs.flatten, r) b := by
      show (do
        let (r, cr) ← Conditioned.conditioned cs.flatten (applyPipelineObjects sc r)
        pure (cr, r) : M LocalBuilder (Reg × Reg)) (root s) = _
      rw [bind_ok k1]
      rfl
    obtain ⟨s', g1, g2, g3⟩ := SubSim.sub (β := β) hs hc hcn hb
    refine ⟨s', g1, g3, ?_⟩
    rw [g2]
    have hi : Idle [cs.flatten] = Idle cs := by unfold Idle; rw [hff]
    rw [hi] at k2
    exact k2

end

theorem invert_turns {sc inv : Pipeline} {δ : ℝ} (h : Turns δ sc) (hi : invertSub sc = .ok inv) : Turns (-δ) inv := by
  induction sc generalizing inv δ with
  | nil =>
    obtain rfl : [] = inv := by injection hi
    have := h.2
    refine ⟨by simp, ?_⟩
    rw [← this]
    simp [rzSum]
  | cons e sc ih =>
    rw [invertSub_cons] at hi
    cases hp : invertSub sc with
    | error x => rw [hp] at hi; cases hi
    | ok p =>
      have h1 := ih (δ := rzSum sc) ⟨fun e he => h.1 e (by simp [he]), rfl⟩ hp
      have hsum := h.2
      rw [rzSum_cons] at hsum
      have he := h.1 e (by simp)
      rcases he with he | ⟨ρ, hρ⟩
      · have h2 : ∃ q, invertSub [e] = .ok q := by
          rw [invertSub_cons] 
          rw [hp] at hi
          cases hq : invertObject e.2 with
          | error x => rw [hq] at hi; cases hi
          | ok q => exact ⟨_, rfl⟩
        obtain ⟨q, hq⟩ := h2
        have h3 := (invertSub_plain (sc := [e]) (by simpa [AllPlain] using he) hq).turns
        rw [invertSub_cons, invertSub_nil] at hq
        rw [hp] at hi
        cases ho : invertObject e.2 with
        | error x => rw [ho] at hq; cases hq
        | ok cos =>
          rw [ho] at hq hi
          injection hq with hq
          injection hi with hi
          rw [← hi]
          have := h1.app (q := cos.map fun co => (e.1, co)) (by rw [← hq] at h3; exact h3)
          rw [plain_rz he, zero_add] at hsum
          rw [hsum, add_zero] at this
          exact this
      · have ho : invertObject e.2 = .ok [⟨e.2.n, .unitary (.Rz ρ.neg)⟩] := by
          unfold invertObject
          rw [hρ]
          rfl
        rw [hp, ho] at hi
        injection hi with hi
        rw [← hi]
        have h3 : Turns (-rotAngle ρ) [(e.1, ⟨e.2.n, .unitary (.Rz ρ.neg)⟩)] :=
          ⟨by simp, by simp [rzSum, rotAngle_neg']⟩
        have := h1.app h3
        have he : rzSum [e] = rotAngle ρ := by simp [rzSum, hρ]
        rw [he] at hsum
        rw [show -δ = -rzSum sc + -rotAngle ρ by linarith]
        exact this

section
variable {β : Type} [Recursive β] [Rooted β] [SubSim β] {cs : List Reg}

/-- The inverse of a function whose circuit consists of gates, and rotations about `z` adding up to zero, runs for certain. It does nothing if
the conditions do not hold. -/
theorem Quiet.inverse {f : List Reg → M LocalBuilder (List Reg)} {rs : List Reg} (hne : rs ≠ []) (hr : ∀ r ∈ rs, r ≠ []) {T : Set (Option ℕ)}
    (hq : Quiet [] (f (ranges 0 (rs.map List.length))) (ranges 0 (rs.map List.length)) (ranges 0 (rs.map List.length)).flatten T)
    (hT : none ∈ T ∨ some (rs.flatten.length - 1) ∈ T) (hk : ∀ rs, Adds (Turns 0) (f rs)) : Quiet cs (invertFn f rs : M β _) rs rs.flatten ∅ := by
  have hpos : ∀ k ∈ rs.map List.length, 0 < k := by
    intro k hk
    simp only [List.mem_map] at hk
    obtain ⟨r, h1, rfl⟩ := hk
    exact List.length_pos_iff.mpr (hr r h1)
  have hfl : rs.flatten ≠ [] := by
    cases rs with
    | nil => exact absurd rfl hne
    | cons r rs => have := hr r (by simp); simp [this]
  have hlen : (rs.map List.length).sum = rs.flatten.length := by rw [List.length_flatten]
  have hfr : (ranges 0 (rs.map List.length)).flatten = List.range' 0 rs.flatten.length := by rw [ranges_flatten, hlen]
  have hown : Own (⟨[], rs.flatten.length, [], 0⟩ : LocalBuilder) (([] : List Reg).flatten ++ (ranges 0 (rs.map List.length)).flatten ++ []) := by
    rw [List.flatten_nil, List.nil_append, List.append_nil, hfr]
    rw [← List.range_eq_range']
    exact fresh_own _
  obtain ⟨b, b1, -, -, -, -, seg, b2, b3, b4, -⟩ := hq ⟨[], rs.flatten.length, [], 0⟩ [] rfl hown
  have hb : b.pipeline = seg := b2
  have hbuild : buildSub (rs.map List.length) f = .ok seg := by
    rw [← hb]
    refine buildSub_ok hpos (a := ranges 0 (rs.map List.length)) ?_
    rw [hlen]
    exact b1
  obtain ⟨p, p1, p2, p3, p4, -, p6⟩ := invertSub_ok (ang := rotAngle) rotAngle_neg' b.n seg fun e he =>
    ⟨(b3 e he).1.1, (b3 e he).1.2.1, (b3 e he).1.2.2.choose, (b3 e he).1.2.2.choose_spec.1⟩
  have ht := invert_turns (buildSub_adds hk hbuild) p1
  obtain ⟨m, m1, m2⟩ : ∃ m, maxIndex seg = some m ∧ rs.flatten.length ≤ m + 1 := by
    rcases hT with hT | hT
    · obtain ⟨e, he, q, h1, h2⟩ := b4 _ hT
      rw [List.flatten_nil, List.nil_append, List.append_nil, hfr, List.mem_range'_1] at h2
      obtain ⟨m, m1, m2⟩ := maxIndex_of_touched ⟨e, he, h1⟩
      exact ⟨m, m1, by omega⟩
    · obtain ⟨m, m1, m2⟩ := maxIndex_of_touched (b4 _ hT)
      exact ⟨m, m1, by omega⟩
  rw [← maxIndex_congr p seg p4] at m1
  refine Sure.of_nodup fun hn s L hs ho => ?_
  obtain ⟨s', k1, k2⟩ := applySub_quiet (β := β) (cs := cs) hfl m1 m2 (fun e he => ⟨p3 b3 e he, ht.1 e he⟩) (by rw [ht.2]; simp) s L hs ho
  exact ⟨s', (inverter_of hne hr hn hbuild p1 k1).2, k2⟩

end

end Verif
