import Verif.Proofs.Uses2

/-! # Counting elements and qubits: programs, subcircuits and inverses -/

namespace Verif
open Classical RegOps CircuitBuilder TempBuilder Rooted

namespace Takes

section
variable {β α γ : Type} [Conditionable β] [Rooted β] [Sim β] {cs : List Reg} {rs : List Reg}

theorem lines_nil : Takes cs (([] : List (Line β)).foldlM runLine (full rs)) (full rs) rs.flatten 0 0 0 := pure _ _

theorem lines_cons {l : Line β} {ls : List (Line β)} {Q : List ℕ} {P P' : Profile} {lo hi lo' hi' : ℕ} (hn : rs.flatten.Nodup) (hv : ValidGroups rs l.groups)
    (h : Takes cs (l.call rs) (l.groups.map (groupReg rs)) Q P lo hi) (hQ : Q = (l.groups.map (groupReg rs)).flatten)
    (h' : Takes cs (ls.foldlM runLine (full rs)) (full rs) rs.flatten P' lo' hi') :
    Takes cs ((l :: ls).foldlM runLine (full rs)) (full rs) rs.flatten (P + P') (max lo lo') (max hi hi') := by
  rw [List.foldlM_cons]
  obtain ⟨g1, g2⟩ := groups_nodup rs hn _ hv
  have h2 := mono h (Q' := rs.flatten) (by rw [hQ]; exact g1) (by rw [hQ]; exact g2)
  exact bind (a := full rs) (fun s L hs ho => (h2 s L hs ho).line hn hv) h'

theorem plain {f : List Reg → M β (List Reg)} {gs : List (List Sel)} {as : List Reg} {ls : List (Line β)} {P P' : Profile} {lo hi lo' hi' : ℕ}
    (hn : rs.flatten.Nodup) (hv : ValidGroups rs gs) (hg : gs.map (groupReg rs) = as)
    (h : Takes cs (f as) as as.flatten P lo hi) (h' : Takes cs (ls.foldlM runLine (full rs)) (full rs) rs.flatten P' lo' hi') :
    Takes cs ((.plain f gs :: ls).foldlM runLine (full rs)) (full rs) rs.flatten (P + P') (max lo lo') (max hi hi') := by
  subst hg
  exact lines_cons (l := .plain f gs) hn hv h rfl h'

/-- a `control` line -/
theorem control {f : List Reg → M (Conditioned β) (List Reg)} {g0 : List Sel} {gs : List (List Sel)} {c : Reg} {as : List Reg} {ls : List (Line β)}
    {P P' : Profile} {lo hi lo' hi' : ℕ} (hn : rs.flatten.Nodup) (hv : ValidGroups rs (g0 :: gs)) (e0 : groupReg rs g0 = c) (e1 : gs.map (groupReg rs) = as)
    (hc : c ≠ []) (h : Takes (c :: cs) (f as) as as.flatten P lo hi) (h' : Takes cs (ls.foldlM runLine (full rs)) (full rs) rs.flatten P' lo' hi') :
    Takes cs ((.control none f (g0 :: gs) :: ls).foldlM runLine (full rs)) (full rs) rs.flatten (P + P') (max lo lo') (max hi hi') := by
  refine lines_cons (l := .control none f (g0 :: gs)) hn hv ?_ rfl h'
  have h1 := map (f := fun p : List Reg × Reg => p.2 :: p.1) (conditioned hc h) rfl
  refine cast h1 ?_ (by simp [Line.groups, e0, e1]) (by simp [Line.groups, e0, e1])
  unfold Line.call
  simp only [List.map_cons, e0, e1, pure_bind]

/-- the X gate of a mask that asks for zero -/
theorem negate (q : ℕ) : Takes cs (Verif.negateBitmask [q] 0 : M β Reg) [q] [q] (tofP cs.flatten.length) (cs.flatten.length - 2) (cs.flatten.length - 2) := by
  have h1 := (x (β := β) (cs := cs) q).bind (f := fun qubit => do
      let m ← mergeRegisters ([] ++ [qubit])
      unwrapO m) (c := [q]) (P' := 0) (lo' := 0) (hi' := 0) (by
    rw [List.nil_append, show ([[q]] : List Reg) = [q].map fun q => [q] from rfl, mergeSingles [q] (by simp)]
    exact pure _ _)
  refine cast (h1.congr (add_zero _) (Nat.le_max_left _ _) (le_of_eq (Nat.max_zero _))) ?_ rfl rfl
  unfold Verif.negateBitmask
  rw [splitAll_eq [q] (by simp) (by simp), pure_bind]
  simp only [List.map_cons, List.map_nil, List.foldlM_cons, List.foldlM_nil, bind_assoc, pure_bind, bind_pure]
  rw [if_pos (by rfl), bind_assoc]
  simp only [pure_bind]
  rfl

/-- a `control(0)` line -/
theorem masked {f : List Reg → M (Conditioned β) (List Reg)} {g0 : List Sel} {gs : List (List Sel)} {c : ℕ} {as : List Reg} {ls : List (Line β)}
    {P P' : Profile} {lo hi lo' hi' : ℕ} (hn : rs.flatten.Nodup) (hv : ValidGroups rs (g0 :: gs)) (e0 : groupReg rs g0 = [c]) (e1 : gs.map (groupReg rs) = as)
    (h : Takes ([c] :: cs) (f as) as as.flatten P lo hi) (h' : Takes cs (ls.foldlM runLine (full rs)) (full rs) rs.flatten P' lo' hi') :
    Takes cs ((.control (some 0) f (g0 :: gs) :: ls).foldlM runLine (full rs)) (full rs) rs.flatten (2 • tofP cs.flatten.length + P + P')
      (max (max (cs.flatten.length - 2) lo) lo') (max (max (cs.flatten.length - 2) hi) hi') := by
  refine lines_cons (l := .control (some 0) f (g0 :: gs)) (Q := [c] ++ as.flatten) hn hv ?_ (by simp [Line.groups, e0, e1]) h'
  refine of_nodup fun hnd => ?_
  have hneg := (negate (β := β) (cs := cs) c).mono (Q' := [c] ++ as.flatten) (by simp) (by intro p hp; simp at hp ⊢; tauto)
  have h2 := hneg.map (f := fun c => c :: as) rfl
  have h3 := hneg.bind (f := fun c => do
    let (rs, cr) ← Conditioned.conditioned c (f as)
    let cr ← Verif.negateBitmask cr 0
    Pure.pure (cr :: rs)) ((conditioned (by simp) h).bind (f := fun p : List Reg × Reg => do
      let cr ← Verif.negateBitmask p.2 0
      Pure.pure (cr :: p.1)) h2)
  refine cast (h3.congr ?_ (by omega) (by omega)) ?_ (by simp [Line.groups, e0, e1]) rfl
  · rw [two_smul]; abel
  · unfold Line.call
    simp only [List.map_cons, e0, e1]

theorem program {lines : List (Line β)} {P : Profile} {lo hi : ℕ} (hr : ∀ r ∈ rs, r ≠ [])
    (h : rs.flatten.Nodup → Takes cs (lines.foldlM runLine (full rs)) (full rs) rs.flatten P lo hi) :
    Takes cs (Verif.program rs lines) rs rs.flatten P lo hi :=
  of_nodup fun hn s L hs ho => Uses.program hr hn (h hn s L hs ho)

end

end Takes

/-! ## profiles of circuits -/

theorem condP_zero (c : ℕ) : condP c 0 = 0 := by simp [condP]

theorem condP_add (c : ℕ) (P Q : Profile) : condP c (P + Q) = condP c P + condP c Q := by
  simp [condP, add_smul, Finset.sum_add_distrib]

theorem condP_one (c : ℕ) (k : Kind) : condP c (one k) = condK c k := by
  unfold condP one
  rw [Finset.sum_eq_single k (fun j _ hj => by simp [hj]) (by simp)]
  simp

theorem invP_add (P Q : Profile) : invP (P + Q) = invP P + invP Q := by
  simp [invP, add_smul, Finset.sum_add_distrib]

theorem invP_one (k : Kind) : invP (one k) = invK k := by
  unfold invP one
  rw [Finset.sum_eq_single k (fun j _ hj => by simp [hj]) (by simp)]
  simp

theorem prof_other {p : Pipeline} (h : prof p .other = 0) : ∀ e ∈ p, kindOf e ≠ .other := by
  intro e he hk
  unfold prof at h
  rw [List.countP_eq_zero] at h
  exact h e he (by simpa using hk)

theorem invK_other {k : Kind} (h : k ≠ .other) : invK k .other = 0 := by
  cases k <;> simp [invK, one] at h ⊢

theorem invP_other {P : Profile} (h : P .other = 0) : invP P .other = 0 := by
  unfold invP
  rw [Finset.sum_apply]
  refine Finset.sum_eq_zero fun k _ => ?_
  by_cases hk : k = .other
  · subst hk; rw [h]; simp
  · simp [invK_other hk]

/-- the inverse of a circuit element -/
theorem invertObject_prof {e : List ℕ × CObj} (hk : kindOf e ≠ .other) {cos : List CObj} (h : invertObject e.2 = .ok cos) :
    prof (cos.map fun co => (e.1, co)) = invK (kindOf e) := by
  obtain ⟨r, n, o⟩ := e
  have fin : ∀ {k : Kind}, (if r.length = 1 then k else .other) ≠ .other → r.length = 1 := by
    intro k h
    by_contra h1
    rw [if_neg h1] at h; exact h rfl
  unfold kindOf at hk ⊢
  simp only at hk ⊢
  split at hk <;> rename_i ho'
  all_goals first | (exact absurd rfl hk) | skip
  case h_6 =>
    have h2 : r.length = 2 := by
      by_contra h1
      rw [if_neg h1] at hk; exact hk rfl
    injection h with h
    subst h
    simp [h2, prof_cons, prof_nil, kindOf, invK]
  all_goals
    have h1 := fin hk
    injection h with h
    subst h
    simp [h1, prof_cons, prof_nil, kindOf, invK, add_assoc]

theorem invertSub_prof {sc inv : Pipeline} (hk : ∀ e ∈ sc, kindOf e ≠ .other) (h : invertSub sc = .ok inv) : prof inv = invP (prof sc) := by
  induction sc generalizing inv with
  | nil =>
    obtain rfl : [] = inv := by injection h
    simp [prof_nil, invP]
  | cons e sc ih =>
    rw [invertSub_cons] at h
    cases hp : invertSub sc with
    | error x => rw [hp] at h; cases h
    | ok p =>
      rw [hp] at h
      cases hq : invertObject e.2 with
      | error x => rw [hq] at h; cases h
      | ok q =>
        rw [hq] at h
        injection h with h
        rw [← h, prof_append, prof_cons, invP_add, invP_one, ih (fun e he => hk e (by simp [he])) hp, invertObject_prof (hk e (by simp)) hq, add_comm]

/-! ## subcircuits -/

section
variable {β : Type} [Conditionable β] [Rooted β] [Sim β] {cs : List Reg}

theorem foldEntries_takes {R : Reg} (sc : Pipeline)
    (h : ∀ e ∈ sc, e.1 ≠ [] ∧ e.1.Nodup ∧ (∀ i ∈ e.1, i < R.length) ∧ e.2.n = e.1.length ∧ kindOf e ≠ .other) :
    Takes cs (sc.foldlM applyEntry (slotsOf R []) : M β _) (slotsOf R []) R (condP cs.flatten.length (prof sc)) 0 cs.flatten.length := by
  refine Takes.of_nodup fun hR => ?_
  induction sc with
  | nil => exact (Takes.pure _ _).congr (by rw [prof_nil, condP_zero]) (le_refl _) (by omega)
  | cons e sc ih =>
    obtain ⟨h1, h2, h3, h4, h5⟩ := h e (by simp)
    rw [List.foldlM_cons]
    have hk : kindOf (at' R e.1, e.2) = kindOf e := by unfold kindOf; simp [at_length]
    have g1 : Takes cs (applyCO (at' R e.1) e.2 : M β _) (at' R e.1) R (condK cs.flatten.length (kindOf e)) 0 cs.flatten.length :=
      (hk ▸ Takes.elem (β := β) (cs := cs) (at' R e.1) e.2 (by simpa [at'] using h1) (by rw [at_length]; exact h4) (by rw [hk]; exact h5)).mono
        (at_nodup R hR e.1 h2 h3) (at_mem R e.1 h3)
    have g2 : Takes cs (applyEntry (slotsOf R []) e : M β _) (slotsOf R []) R (condK cs.flatten.length (kindOf e)) 0 cs.flatten.length := by
      intro s L hs ho
      obtain ⟨s', k1, k2⟩ := g1 s L hs ho
      exact ⟨s', applyEntry_of hR h1 h2 h3 k1, k2⟩
    exact (g2.bind (ih fun e' he' => h e' (by simp [he']))).congr (by rw [prof_cons, condP_add, condP_one]) (le_refl _) (by omega)

/-- a subcircuit with its temporaries -/
theorem pipeline_takes {sc : Pipeline} {r : Reg} (hr : r ≠ []) {m : ℕ} (hm : maxIndex sc = some m) (hk : r.length ≤ m + 1)
    (h : ∀ e ∈ sc, e.1 ≠ [] ∧ e.1.Nodup ∧ e.2.n = e.1.length ∧ kindOf e ≠ .other) :
    Takes cs (applyPipelineObjects sc r : M β _) r r (condP cs.flatten.length (prof sc)) 0 (m + 1 - r.length + cs.flatten.length) := by
  refine Takes.of_nodup fun hn => ?_
  have hlt : ∀ e ∈ sc, ∀ i ∈ e.1, i ≤ m := ((maxIndex_iff sc m).mp hm).2
  have hfold : ∀ t : Reg, t.length = m + 1 - r.length → Takes cs (sc.foldlM applyEntry (slotsOf (r ++ t) []) : M β _) (slotsOf (r ++ t) []) (r ++ t)
      (condP cs.flatten.length (prof sc)) 0 cs.flatten.length := by
    intro t ht
    refine foldEntries_takes sc fun e he => ⟨(h e he).1, (h e he).2.1, fun i hi => ?_, (h e he).2.2⟩
    have := hlt e he i hi
    simp only [List.length_append]
    omega
  intro s L hs ho
  unfold applyPipelineObjects
  simp only
  rw [splitAll_eq r hr hn]
  simp only [pure_bind]
  rw [hm]
  simp only [unwrapO_some, pure_bind]
  rw [if_neg (by omega)]
  by_cases h0 : 1 + m - r.length = 0
  · rw [if_pos h0]
    have e0 : m + 1 - r.length = 0 := by omega
    have h1 := hfold [] (by simpa using e0.symm)
    rw [List.append_nil, slotsOf_nil] at h1
    refine (Uses.bind (h1 s L hs ho) (c := r) (L2 := cs.flatten ++ r ++ L) (P' := 0) (k := 0) (lo' := 0) (hi' := 0) fun s' _ o' => ?_).congr (List.Perm.refl _) (add_zero _)
      (by omega) (by omega)
    rw [← slotsOf_nil, slots_mapM]
    simp only [unwrapO_some, pure_bind]
    rw [if_neg (by simp), List.drop_eq_nil_of_le (by simp), mergeRegisters_nil, pure_bind,
      List.take_of_length_le (by simp), mergeSingles r hr]
    exact Uses.pure o' _
  · rw [if_neg h0]
    refine (Uses.temp (n := 1 + m - r.length) (by omega) (k := 0) (lo := 0) (hi := cs.flatten.length) (P := condP cs.flatten.length (prof sc)) (L2 := cs.flatten ++ r ++ L)
      (c := r) ho fun t s1 ht hs1 o1 => ?_).congr (List.Perm.refl _) rfl (by omega) (by omega)
    have htne : t ≠ [] := by rintro rfl; simp at ht; omega
    have htn : t.Nodup := (List.nodup_append.mp o1.left).1
    have perm : (t ++ (cs.flatten ++ r ++ L)).Perm (cs.flatten ++ (r ++ t) ++ L) := by
      rw [← List.append_assoc, ← List.append_assoc cs.flatten]
      exact List.perm_append_comm.append_right L
    rw [splitAll_eq t htne htn]
    simp only [pure_bind]
    rw [← List.map_append, ← slotsOf_nil]
    refine (Uses.bind (hfold t (by omega) s1 L (hs1.trans hs) (o1.perm perm)) (c := r) (L2 := cs.flatten ++ r ++ L) (P' := 0)
      (k := 0 + (1 + m - r.length)) (lo' := 0) (hi' := 0) fun s2 _ o2 => ?_).congr (List.Perm.refl _) (add_zero _) (by omega) (by omega)
    rw [slots_mapM]
    simp only [unwrapO_some, pure_bind]
    rw [if_neg (by simp)]
    have ed : ((r ++ t).map fun q => [q]).drop r.length = t.map fun q => [q] := by
      rw [List.map_append, List.drop_left' (by simp)]
    have et : ((r ++ t).map fun q => [q]).take r.length = r.map fun q => [q] := by
      rw [List.map_append, List.take_left' (by simp)]
    rw [ed, et, mergeSingles t htne, pure_bind]
    simp only
    rw [← ht]
    refine Uses.give htne (o2.perm perm.symm) fun s3 _ o3 => ?_
    rw [mergeSingles r hr]
    exact Uses.pure o3 _

end

section
variable {β : Type} [Recursive β] [Rooted β] [SubSim β] {cs : List Reg}

theorem applySub_takes {sc : Pipeline} {r : Reg} (hr : r ≠ []) {m : ℕ} (hm : maxIndex sc = some m) (hk : r.length ≤ m + 1)
    (h : ∀ e ∈ sc, e.1 ≠ [] ∧ e.1.Nodup ∧ e.2.n = e.1.length ∧ kindOf e ≠ .other) :
    Takes cs (Recursive.applySub sc r : M β Reg) r r (condP cs.flatten.length (prof sc)) 0 (m + 1 - r.length + cs.flatten.length) := by
  intro s L hs ho
  by_cases hc : cs = []
  · subst hc
    exact Uses.of_root (pipeline_takes (β := LocalBuilder) (cs := []) hr hm hk h (root s) L rfl ho) fun b hb => SubSim.sub_nil hs hb
  · have hfl := flatten_ne hs hc
    have hcn : cs.flatten.Nodup := (List.nodup_append.mp (List.nodup_append.mp ho.left).1).1
    have hctl : ctl (⟨root s, some cs.flatten⟩ : Conditioned LocalBuilder) = some [cs.flatten] := conditioned_ctl rfl hfl
    have hff : ([cs.flatten] : List Reg).flatten = cs.flatten := by simp
    have h1 := pipeline_takes (β := Conditioned LocalBuilder) (cs := [cs.flatten]) hr hm hk h ⟨root s, some cs.flatten⟩ L hctl (by rw [hff]; exact ho)
    rw [hff] at h1
    obtain ⟨b, k1, k2⟩ := Uses.conditioned (β := LocalBuilder) (cs := []) rfl hfl h1
    refine Uses.of_root (l := Recursive.applyCondSub (β := LocalBuilder) sc cs.flatten r) (c := (cs.flatten, r)) ⟨b, ?_, k2⟩ fun b hb => SubSim.sub hs hc hcn hb
    show (do
      let (r, cr) ← Conditioned.conditioned cs.flatten (applyPipelineObjects sc r)
      pure (cr, r) : M LocalBuilder (Reg × Reg)) (root s) = _
    rw [bind_ok k1]
    rfl

/-- the inverse of a function -/
theorem Takes.inverse {f : List Reg → M LocalBuilder (List Reg)} {rs : List Reg} (hne : rs ≠ []) (hr : ∀ r ∈ rs, r ≠ []) {T : Set (Option ℕ)}
    (hq : Quiet [] (f (ranges 0 (rs.map List.length))) (ranges 0 (rs.map List.length)) (ranges 0 (rs.map List.length)).flatten T)
    (hT : none ∈ T ∨ some (rs.flatten.length - 1) ∈ T) {P : Profile} {lo hi : ℕ}
    (hu : Takes [] (f (ranges 0 (rs.map List.length))) (ranges 0 (rs.map List.length)) (ranges 0 (rs.map List.length)).flatten P lo hi) (hP : P .other = 0) :
    Takes cs (invertFn f rs : M β _) rs rs.flatten (Count.inv P cs.flatten.length) 0 (hi + cs.flatten.length) := by
  have hpos : ∀ k ∈ rs.map List.length, 0 < k := by
    intro k hk
    simp only [List.mem_map] at hk
    obtain ⟨r, h1, rfl⟩ := hk
    exact List.length_pos_iff.mpr (hr r h1)
  have hfl : rs.flatten ≠ [] := by
    cases rs with
    | nil => exact absurd rfl hne
    | cons r rs => have := hr r (by simp); simp [this]
  have hlen : (rs.map List.length).sum = rs.flatten.length := by rw [List.length_flatten]
  have hfr : (ranges 0 (rs.map List.length)).flatten = List.range' 0 rs.flatten.length := by rw [ranges_flatten, hlen]
  have hown : Own (⟨[], rs.flatten.length, [], 0⟩ : LocalBuilder) (([] : List Reg).flatten ++ (ranges 0 (rs.map List.length)).flatten ++ []) := by
    rw [List.flatten_nil, List.nil_append, List.append_nil, hfr]
    rw [← List.range_eq_range']
    exact fresh_own _
  obtain ⟨b, b1, -, -, -, -, seg, b2, b3, b4, -⟩ := hq ⟨[], rs.flatten.length, [], 0⟩ [] rfl hown
  obtain ⟨b', b1', -, -, ⟨seg', w1, w2⟩, -, -, w3⟩ := hu ⟨[], rs.flatten.length, [], 0⟩ [] rfl hown
  rw [b1] at b1'
  injection b1' with _ b1'
  subst b1'
  have hb : b.pipeline = seg := b2
  have hb' : b.pipeline = seg' := w1
  obtain rfl : seg = seg' := hb.symm.trans hb'
  have hbn : b.n ≤ rs.flatten.length + hi := by
    have : b.n ≤ max rs.flatten.length (rs.flatten.length - 0 + hi) := w3
    omega
  have hbuild : buildSub (rs.map List.length) f = .ok seg := by
    rw [← hb]
    refine buildSub_ok hpos (a := ranges 0 (rs.map List.length)) ?_
    rw [hlen]
    exact b1
  obtain ⟨p, p1, p2, p3, p4, -, p6⟩ := invertSub_ok (ang := rotAngle) rotAngle_neg' b.n seg fun e he =>
    ⟨(b3 e he).1.1, (b3 e he).1.2.1, (b3 e he).1.2.2.choose, (b3 e he).1.2.2.choose_spec.1⟩
  have hprof := invertSub_prof (prof_other (by rw [w2]; exact hP)) p1
  rw [w2] at hprof
  obtain ⟨m, m1, m2⟩ : ∃ m, maxIndex seg = some m ∧ rs.flatten.length ≤ m + 1 := by
    rcases hT with hT | hT
    · obtain ⟨e, he, q, h1, h2⟩ := b4 _ hT
      rw [List.flatten_nil, List.nil_append, List.append_nil, hfr, List.mem_range'_1] at h2
      obtain ⟨m, m1, m2⟩ := maxIndex_of_touched ⟨e, he, h1⟩
      exact ⟨m, m1, by omega⟩
    · obtain ⟨m, m1, m2⟩ := maxIndex_of_touched (b4 _ hT)
      exact ⟨m, m1, by omega⟩
  have hmn : m < b.n := by
    obtain ⟨e, he, hme⟩ := ((maxIndex_iff seg m).mp m1).1
    exact (b3 e he).1.1.2.1 m hme
  rw [← maxIndex_congr p seg p4] at m1
  have hno := prof_other (p := p) (by rw [hprof]; exact invP_other hP)
  refine Takes.of_nodup fun hn s L hs ho => ?_
  have hp := fun e he => p3 b3 e he
  obtain ⟨s', k1, k2⟩ := (applySub_takes (β := β) (cs := cs) hfl m1 m2 (fun e he => ⟨segOK_ne (hp e he), (hp e he).1.1.1, (hp e he).1.2.1, hno e he⟩)).congr
    (lo' := 0) (hi' := hi + cs.flatten.length) (by rw [hprof]) (le_refl _) (by omega) s L hs ho
  exact ⟨s', (inverter_of hne hr hn hbuild p1 k1).2, k2⟩

end

end Verif
