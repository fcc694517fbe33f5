import Verif.Proofs.TimesOne

/-! # `times_mod` with one qubit `b` of either value: never right -/

namespace Verif
open Classical Complex RegOps CircuitBuilder TempBuilder Rooted

theorem carryMap_agree (S : List ℕ) (c a b d : ℕ) (h : c ∈ S ∧ a ∈ S ∧ b ∈ S ∧ d ∈ S) (x y : Asg) (hxy : ∀ q ∈ S, x q = y q) :
    ∀ q ∈ S, carryMap c a b d x q = carryMap c a b d y q := by
  intro q hq
  unfold carryMap
  rw [hxy c h.1, hxy a h.2.1, hxy b h.2.2.1, hxy d h.2.2.2]
  by_cases e : q = d
  · rw [e, Function.update_self, Function.update_self]
  · rw [Function.update_of_ne e, Function.update_of_ne e, hxy q hq]

theorem sumMap_agree (S : List ℕ) (c a b : ℕ) (h : c ∈ S ∧ a ∈ S ∧ b ∈ S) (x y : Asg) (hxy : ∀ q ∈ S, x q = y q) :
    ∀ q ∈ S, sumMap c a b x q = sumMap c a b y q := by
  intro q hq
  unfold sumMap
  rw [hxy c h.1, hxy a h.2.1, hxy b h.2.2]
  by_cases e : q = b
  · rw [e, Function.update_self, Function.update_self]
  · rw [Function.update_of_ne e, Function.update_of_ne e, hxy q hq]

theorem subMap_agree (S : List ℕ) (c a b : Reg) (x y : Asg) (hc : ∀ q ∈ c, q ∈ S) (ha : ∀ q ∈ a, q ∈ S) (hb : ∀ q ∈ b, q ∈ S)
    (hxy : ∀ q ∈ S, x q = y q) : ∀ q ∈ S, subMap c a b x q = subMap c a b y q := by
  fun_induction subMap c a b x generalizing y with
  | case1 c a b b' x =>
    rw [subMap]
    simp only [List.mem_cons, List.not_mem_nil, or_false, forall_eq_or_imp, forall_eq] at hc ha hb
    exact carryMap_agree S c a b b' ⟨hc, ha, hb.1, hb.2⟩ _ _ (sumMap_agree S c a b ⟨hc, ha, hb.1⟩ _ _ hxy)
  | case2 c c' cs a as b bs x ih =>
    rw [subMap]
    simp only [List.mem_cons, forall_eq_or_imp] at hc ha hb
    have k : c ∈ S ∧ a ∈ S ∧ b ∈ S ∧ c' ∈ S := ⟨hc.1, ha.1, hb.1, hc.2.1⟩
    refine carryMap_agree S c a b c' k _ _ (ih _ ?_ ha.2 hb.2 (carryMap_agree S c a b c' k _ _ (sumMap_agree S c a b ⟨hc.1, ha.1, hb.1⟩ _ _ hxy)))
    simp only [List.mem_cons, forall_eq_or_imp]
    exact hc.2
  | case3 c a b x h1 h2 =>
    intro q hq
    have : subMap c a b y = y := by
      rw [subMap]
      · exact h1
      · exact h2
    rw [this, hxy q hq]

section
variable {ra rm rp : Reg} {b t n c0 : ℕ} {ct : Reg}

/-- the first three lines -/
theorem Moves.timesHead (hm : rm.length = n) (ha : ra.length = n + 1) (hc : n = ct.length + 1)
    (hn : [ra, [b], rm, rp, [t], c0 :: ct].flatten.Nodup) :
    Moves rotAngle [] (([.plain Arith.addInv [[(5, none)], [(2, none)], [(0, none)]],
         .control none (Verif.op1 Gate.x) [[(0, some [n])], [(4, some [0])]],
         .control none Arith.add [[(4, some [0])], [(5, none)], [(2, none)], [(0, none)]]] : List (Line LocalBuilder)).foldlM runLine
           (full [ra, [b], rm, rp, [t], c0 :: ct])) (full [ra, [b], rm, rp, [t], c0 :: ct]) [ra, [b], rm, rp, [t], c0 :: ct].flatten
      (fun x => let y := timesPre ra rm t n (c0 :: ct) x
        if y t = true then addW (c0 :: ct) rm ra y else ket y) := by
  have ne : ∀ r : Reg, 0 < r.length → r ≠ [] := fun r h => List.length_pos_iff.mp h
  have hr0 := ne ra (by omega)
  have hr2 := ne rm (by omega)
  obtain ⟨rs, hrs⟩ : ∃ rs, rs = [ra, [b], rm, rp, [t], c0 :: ct] := ⟨_, rfl⟩
  rw [← hrs] at hn ⊢
  have g0 : groupReg rs [(0, none)] = ra := by rw [groupReg_all, hrs]; rfl
  have g2 : groupReg rs [(2, none)] = rm := by rw [groupReg_all, hrs]; rfl
  have g5 : groupReg rs [(5, none)] = c0 :: ct := by rw [groupReg_all, hrs]; rfl
  have gn : groupReg rs [(0, some [n])] = [ra.getD n 0] := by rw [groupReg_one, hrs]; rfl
  have gt : groupReg rs [(4, some [0])] = [t] := by rw [groupReg_one, hrs]; rfl
  have v1 : ValidGroups rs [[(5, none)], [(2, none)], [(0, none)]] :=
    valid_sels rs [(5, none), (2, none), (0, none)] (by simp) (by rw [hrs]; simp [SelOK, hr0, hr2])
  have v2 : ValidGroups rs [[(0, some [n])], [(4, some [0])]] :=
    valid_sels rs [(0, some [n]), (4, some [0])] (by simp) (by rw [hrs]; simp [SelOK, ha])
  have v3 : ValidGroups rs [[(4, some [0])], [(5, none)], [(2, none)], [(0, none)]] :=
    valid_sels rs [(4, some [0]), (5, none), (2, none), (0, none)] (by simp) (by rw [hrs]; simp [SelOK, hr0, hr2])
  have m1 : Maps rotAngle [] (Arith.addInv [c0 :: ct, rm, ra] : M LocalBuilder _) _ _ _ := Maps.addInv rotAngle_neg' c0 ct rm ra (by omega) (by omega)
  have m3 := Moves.add (β := Conditioned LocalBuilder) (cs := [[t]]) (by simp) c0 ct rm ra (by omega) (by omega)
  have h1 : Moves rotAngle [] _ _ _ _ := Moves.lines_nil (β := LocalBuilder) (rs := rs)
  have h2 := Moves.lines_cons hn (l := .control none Arith.add [[(4, some [0])], [(5, none)], [(2, none)], [(0, none)]]) v3
    (Moves.control gt (as := [c0 :: ct, rm, ra]) (by simp only [List.map_cons, List.map_nil, g0, g2, g5]) (by simp) m3) rfl h1
  have h3 := Moves.lines_cons hn (l := .control none (Verif.op1 Gate.x) [[(0, some [n])], [(4, some [0])]]) v2
    (Maps.control_x (by rw [gn]; simp) gt).moves rfl h2
  have h4 := Moves.lines_map hn v1 (as := [c0 :: ct, rm, ra]) (by simp only [List.map_cons, List.map_nil, g5, g2, g0]) m1 h3
  refine h4.congr fun x => ?_
  have e : ∀ ψ, lift ket ψ = ψ := fun ψ => by
    have : lift ket = LinearMap.id := wave_ext fun y => by rw [lift_ket]; rfl
    rw [this]; rfl
  simp only [gn, List.mem_singleton, forall_eq, lift_ket, e]
  rfl

/-- the fourth line -/
theorem timesAddMod {s : LocalBuilder} {L : List ℕ} (hm : rm.length = n) (ha : ra.length = n + 1) (hp : rp.length = n + 1) (hc : n = ct.length + 1)
    (ho : Own s ([ra, [b], rm, rp, [t], c0 :: ct].flatten ++ L)) :
    ∃ s' seg, runLine (full [ra, [b], rm, rp, [t], c0 :: ct])
        (.control none Arith.addMod [[(1, some [0])], [(0, some (List.range n))], [(3, none)], [(2, none)]]) s =
          .ok (full [ra, [b], rm, rp, [t], c0 :: ct]) s' ∧ s'.pipeline = s.pipeline ++ seg ∧ Own s' ([ra, [b], rm, rp, [t], c0 :: ct].flatten ++ L) ∧
      (∀ x, Clean s x → x b = false → Clean s' x) ∧
      ∀ x, Clean s x → On {y | ∀ q ∈ ra, y q = x q} (runW rotAngle seg (ket x)) := by
  have ne : ∀ r : Reg, 0 < r.length → r ≠ [] := fun r h => List.length_pos_iff.mp h
  have hr0 := ne ra (by omega)
  have hr2 := ne rm (by omega)
  have hr3 := ne rp (by omega)
  have hn : [ra, [b], rm, rp, [t], c0 :: ct].flatten.Nodup := (List.nodup_append.mp ho.left).1
  have hrap : ∀ q ∈ ra, q ∉ rp := by
    simp only [List.flatten_cons, List.flatten_nil, List.append_nil, List.nodup_append, List.nodup_cons, List.mem_cons, List.mem_append] at hn ⊢
    grind
  obtain ⟨rs, hrs⟩ : ∃ rs, rs = [ra, [b], rm, rp, [t], c0 :: ct] := ⟨_, rfl⟩
  rw [← hrs] at hn ⊢
  have g2 : groupReg rs [(2, none)] = rm := by rw [groupReg_all, hrs]; rfl
  have g3 : groupReg rs [(3, none)] = rp := by rw [groupReg_all, hrs]; rfl
  have gr : groupReg rs [(0, some (List.range n))] = ra.take n := by rw [groupReg_one, hrs]; exact at_range ra n (by omega)
  have gb : groupReg rs [(1, some [0])] = [b] := by rw [groupReg_one, hrs]; rfl
  have v4 : ValidGroups rs [[(1, some [0])], [(0, some (List.range n))], [(3, none)], [(2, none)]] :=
    valid_sels rs [(1, some [0]), (0, some (List.range n)), (3, none), (2, none)] (by simp) (by
      rw [hrs]
      simp only [List.mem_cons, List.not_mem_nil, or_false, forall_eq_or_imp, forall_eq]
      refine ⟨by simp [SelOK], ⟨by simp, by simp; omega, List.nodup_range, ?_⟩, by simp [SelOK, hr3], by simp [SelOK, hr2]⟩
      intro j hj
      have := List.mem_range.mp hj
      show j < ra.length
      omega)
  have hta : ra = ra.take n ++ ra.drop n := (List.take_append_drop n ra).symm
  have hp1 : ([ra, [b], rm, rp, [t], c0 :: ct].flatten ++ L).Perm ([[b]].flatten ++ [ra.take n, rp, rm].flatten ++ (ra.drop n ++ [t] ++ (c0 :: ct) ++ L)) := by
    conv_lhs => rw [hta]
    simp only [List.flatten_cons, List.flatten_nil, List.append_nil]
    rw [List.perm_iff_count]
    intro q
    simp only [List.count_append, List.count_cons, List.count_nil]
    omega
  have o1 := ho.perm hp1
  have hcall : ∀ (s' : LocalBuilder) (sc : Conditioned LocalBuilder), Arith.addMod [ra.take n, rp, rm] (⟨s, some [b]⟩ : Conditioned LocalBuilder) =
      .ok [ra.take n, rp, rm] sc → sc.cr = some [b] → sc.parent = s' →
      runLine (full rs) (.control none Arith.addMod [[(1, some [0])], [(0, some (List.range n))], [(3, none)], [(2, none)]]) s = .ok (full rs) s' := by
    intro s' sc h1 h2 h3
    refine runLine_ok hn (l := .control none Arith.addMod [[(1, some [0])], [(0, some (List.range n))], [(3, none)], [(2, none)]]) v4 ?_
    unfold Line.call
    simp only [List.map_cons, List.map_nil, Line.groups, gb, gr, g3, g2, pure_bind]
    have : (Conditioned.conditioned [b] (Arith.addMod [ra.take n, rp, rm]) : M LocalBuilder _) s = .ok ([ra.take n, rp, rm], [b]) s' := by
      unfold Conditioned.conditioned
      rw [h1]
      simp only
      rw [h2, h3]
    rw [bind_ok this]
    rfl
  have hctl : ctl (⟨s, some [b]⟩ : Conditioned LocalBuilder) = some [[b]] := conditioned_ctl rfl (by simp)
  obtain ⟨sc, seg, a1, a2, a3, a4⟩ := addMod_spares (β := Conditioned LocalBuilder) (cs := [[b]]) (s := ⟨s, some [b]⟩) (by simp) (ra := ra.take n) (rb := rp) (rm := rm)
    (ne _ (by simp; omega)) (by simp; omega) (by simp; omega) hctl o1
  obtain ⟨sd, b1, -, b3, -, -, sg, b4, -, -, b6⟩ := Quiet.addMod (β := Conditioned LocalBuilder) (cs := [[b]]) (ra.take n) rp rm (ne _ (by simp; omega)) (by simp; omega) (by simp; omega)
    ⟨s, some [b]⟩ _ hctl o1
  obtain rfl : sc = sd := by
    have := a1.symm.trans b1
    injection this
  rw [hctl] at a2
  obtain ⟨cr', ps, e1, -, -, e4⟩ := ctl_conditioned a2
  injection e4 with e4 e5
  subst e4
  refine ⟨sc.parent, seg, hcall _ sc a1 e1 rfl, a3, hrs ▸ b3.perm hp1.symm, fun x hx hb => ?_, fun x hx => (a4 x hx).mono fun y hy q hq => ?_⟩
  · have := (b6 x (by simp [Idle, hb]) hx).2
    exact on_ket this
  · refine hy q ⟨?_, hrap q hq⟩
    rw [← hp1.mem_iff]
    simp [hq]

end

/-- `times_mod` with one qubit `b`: if `a < m`, the result is never a basis state with all qubits but those of `p` as before -/
theorem timesOne_wrong {s : LocalBuilder} {ra rm rp : Reg} {b : ℕ} {L : List ℕ} (hm : rm ≠ []) (ha : ra.length = rm.length + 1)
    (hp : rp.length = rm.length + 1) (ho : Own s ([ra, [b], rm, rp].flatten ++ L)) (x y : Asg) (hx : Clean s x) (h1 : valQ ra x < valQ rm x)
    (hy : ∀ q, q ∉ rp → y q = x q) : ¬ Sends rotAngle (Arith.timesMod [ra, [b], rm, rp]) s [ra, [b], rm, rp] x y := by
  rintro ⟨sf, segf, r1, r2, r3⟩
  have hpos := List.length_pos_iff.mpr hm
  obtain ⟨rt, s1, a1, a2, -, a3, a4, -, -, -, a7⟩ := makeTempRegister_sim (β := LocalBuilder) (n := 1) (by omega) ho
  obtain ⟨rc, s2, b1, b2, -, b3, b4, -, -, -, b7⟩ := makeTempRegister_sim (β := LocalBuilder) (n := rm.length) hpos a3
  obtain ⟨t, rfl⟩ := List.length_eq_one_iff.mp a2
  obtain ⟨c0, ct, rfl⟩ := List.exists_cons_of_length_pos (l := rc) (by omega)
  have hc : rm.length = ct.length + 1 := by simpa using b2.symm
  have hp1 : ((c0 :: ct) ++ ([t] ++ ([ra, [b], rm, rp].flatten ++ L))).Perm ([] ++ [ra, [b], rm, rp, [t], c0 :: ct].flatten ++ L) := by
    simp only [List.flatten_cons, List.flatten_nil, List.append_nil, List.nil_append]
    rw [List.perm_iff_count]
    intro q
    simp only [List.count_append, List.count_cons, List.count_nil]
    omega
  have o2 := b3.perm hp1
  have hn : [ra, [b], rm, rp, [t], c0 :: ct].flatten.Nodup := by
    have := (List.nodup_append.mp o2.left).1
    rwa [List.nil_append] at this
  have hr : ∀ r ∈ [ra, [b], rm, rp, [t], c0 :: ct], r ≠ [] := by
    have : ra ≠ [] := by rintro rfl; simp at ha
    have : rp ≠ [] := by rintro rfl; simp at hp
    simp [*]
  -- the first three lines
  obtain ⟨s3, c1, -, c2, c3⟩ := (Moves.timesHead (b := b) (rp := rp) rfl ha hc hn).does s2 L rfl o2
  obtain ⟨seg3, c4, -, c5⟩ := c3.seg
  -- the fourth
  obtain ⟨s4, seg4, d1, d2, d3, d4, d5⟩ := timesAddMod (s := s3) rfl ha hp hc c2
  -- the fifth
  have v5 : ValidGroups [ra, [b], rm, rp, [t], c0 :: ct] [[(0, none)]] :=
    valid_sels [ra, [b], rm, rp, [t], c0 :: ct] [(0, none)] (by simp) (by simp [SelOK, hr ra (by simp)])
  have g0 : groupReg [ra, [b], rm, rp, [t], c0 :: ct] [(0, none)] = ra := by rw [groupReg_all]; rfl
  have m5 : Maps rotAngle [] (Arith.rshift [ra] : M LocalBuilder _) [ra] [ra].flatten (rotate 1 ra) := by
    simpa using Maps.rshift (β := LocalBuilder) (ang := rotAngle) [] ra (hr ra (by simp))
  obtain ⟨s5, e1, -, e2, e3⟩ := (Moves.lines_map hn v5 (as := [ra]) (by simp only [List.map_cons, List.map_nil, g0]) m5
    (Moves.lines_nil (β := LocalBuilder))).does s4 L rfl d3
  obtain ⟨seg5, e4, e5, e6⟩ := e3.seg
  -- the second program
  have hp2 : ([] ++ [ra, [b], rm, rp, [t], c0 :: ct].flatten ++ L).Perm ([] ++ [ra, rm, [t], c0 :: ct].flatten ++ ([b] ++ rp ++ L)) := by
    simp only [List.flatten_cons, List.flatten_nil, List.append_nil, List.nil_append]
    rw [List.perm_iff_count]
    intro q
    simp only [List.count_append, List.count_cons, List.count_nil]
    omega
  have o5 := e2.perm hp2
  have hn6 : [ra, rm, [t], c0 :: ct].flatten.Nodup := by
    have := (List.nodup_append.mp o5.left).1
    rwa [List.nil_append] at this
  obtain ⟨s6, f1, -, f2, f3⟩ := (Moves.timesBwd rfl ha hc hn6).does s5 _ rfl o5
  obtain ⟨seg6, f4, f5, f6⟩ := f3.seg
  have hp3 : ([] ++ [ra, rm, [t], c0 :: ct].flatten ++ ([b] ++ rp ++ L)).Perm ((c0 :: ct) ++ ([t] ++ ([ra, [b], rm, rp].flatten ++ L))) := by
    simp only [List.flatten_cons, List.flatten_nil, List.append_nil, List.nil_append]
    rw [List.perm_iff_count]
    intro q
    simp only [List.count_append, List.count_cons, List.count_nil]
    omega
  obtain ⟨s7, i1, i2, i3, -⟩ := returnTempR_local (c0 :: ct) (by simp) (f2.perm hp3)
  obtain ⟨s8, j1, j2, j3, -⟩ := returnTempR_local [t] (by simp) i2
  have hfwd : (Verif.program [ra, [b], rm, rp, [t], c0 :: ct]
        [.plain Arith.addInv [[(5, none)], [(2, none)], [(0, none)]],
         .control none (Verif.op1 Gate.x) [[(0, some [rm.length])], [(4, some [0])]],
         .control none Arith.add [[(4, some [0])], [(5, none)], [(2, none)], [(0, none)]],
         .control none Arith.addMod [[(1, some [0])], [(0, some (List.range rm.length))], [(3, none)], [(2, none)]],
         .plain Arith.rshift [[(0, none)]]] : M LocalBuilder _) s2 = .ok [ra, [b], rm, rp, [t], c0 :: ct] s5 := by
    rw [program_eq _ hr hn]
    have happ : ([.plain Arith.addInv [[(5, none)], [(2, none)], [(0, none)]],
         .control none (Verif.op1 Gate.x) [[(0, some [rm.length])], [(4, some [0])]],
         .control none Arith.add [[(4, some [0])], [(5, none)], [(2, none)], [(0, none)]],
         .control none Arith.addMod [[(1, some [0])], [(0, some (List.range rm.length))], [(3, none)], [(2, none)]],
         .plain Arith.rshift [[(0, none)]]] : List (Line LocalBuilder)) =
       [.plain Arith.addInv [[(5, none)], [(2, none)], [(0, none)]],
         .control none (Verif.op1 Gate.x) [[(0, some [rm.length])], [(4, some [0])]],
         .control none Arith.add [[(4, some [0])], [(5, none)], [(2, none)], [(0, none)]]] ++
       (.control none Arith.addMod [[(1, some [0])], [(0, some (List.range rm.length))], [(3, none)], [(2, none)]] ::
         [.plain Arith.rshift [[(0, none)]]]) := rfl
    rw [happ, List.foldlM_append, bind_assoc]
    refine (bind_ok c1).trans ?_
    rw [List.foldlM_cons, bind_assoc]
    refine (bind_ok d1).trans ?_
    refine (bind_ok e1).trans ?_
    rw [mergeSlots_full _ hr]
    rfl
  have hrun : Arith.timesMod [ra, [b], rm, rp] s = .ok [ra, [b], rm, rp] s8 := by
    have i1' : (returnTemp (c0 :: ct) : M LocalBuilder Unit) s6 = .ok () s7 := i1
    have j1' : (returnTemp [t] : M LocalBuilder Unit) s7 = .ok () s8 := j1
    rw [Arith.timesMod, if_neg (by omega), if_neg (by omega), List.length_singleton, bind_ok a1, bind_ok b1]
    simp only [show List.range 1 = [0] from rfl, List.reverse_cons, List.reverse_nil, List.nil_append, List.foldlM_cons, List.foldlM_nil, bind_pure]
    refine (bind_ok hfwd).trans ?_
    simp only [bind_assoc]
    refine (bind_ok f1).trans ?_
    simp only [pure_bind]
    rw [bind_ok i1', bind_ok j1']
    rfl
  obtain rfl : sf = s8 := by
    have := r1.symm.trans hrun
    injection this
  have q1 : s1.pipeline = s.pipeline := a4
  have q2 : s2.pipeline = s1.pipeline := b4
  have q3 : s3.pipeline = s2.pipeline ++ seg3 := c4
  have q5 : s5.pipeline = s4.pipeline ++ seg5 := e4
  have q6 : s6.pipeline = s5.pipeline ++ seg6 := f4
  have q7 : s7.pipeline = s6.pipeline := i3
  have q8 : sf.pipeline = s7.pipeline := j3
  have hseg : segf = seg3 ++ (seg4 ++ (seg5 ++ seg6)) := by
    have : s.pipeline ++ segf = s.pipeline ++ (seg3 ++ (seg4 ++ (seg5 ++ seg6))) := by
      rw [← r2, q8, q7, q6, q5, d2, q3, q2, q1]
      simp only [List.append_assoc]
    exact List.append_cancel_left this
  -- qubits
  have hd : (∀ q ∈ ra, q ∉ rp) ∧ (∀ q ∈ rm, q ∉ rp) ∧ (∀ q ∈ t :: c0 :: ct, q ∉ rp) ∧ ((c0 :: ct) ++ rm ++ ra).Nodup ∧
      t ∉ ra ∧ t ∉ rm ∧ t ∉ c0 :: ct ∧ ra.Nodup ∧ b ∉ ra ∧ b ∉ c0 :: ct ∧ b ≠ t := by
    have dis : ∀ (u v : Reg), (∃ w, (u ++ v ++ w).Perm [ra, [b], rm, rp, [t], c0 :: ct].flatten) → ∀ q ∈ u, q ∉ v := by
      rintro u v ⟨w, hw⟩ q hu hv
      exact (List.nodup_append.mp (List.nodup_append.mp (hw.nodup_iff.mpr hn)).1).2.2 q hu q hv rfl
    have cnt : ∀ (u v : Reg), (∀ q, u.count q = v.count q) → u.Perm v := fun u v h => List.perm_iff_count.mpr h
    simp only [List.flatten_cons, List.flatten_nil, List.append_nil] at dis
    refine ⟨dis ra rp ⟨[b] ++ rm ++ [t] ++ c0 :: ct, cnt _ _ fun q => ?_⟩, dis rm rp ⟨[b] ++ ra ++ [t] ++ c0 :: ct, cnt _ _ fun q => ?_⟩,
      dis (t :: c0 :: ct) rp ⟨[b] ++ ra ++ rm, cnt _ _ fun q => ?_⟩, ?_, dis [t] ra ⟨[b] ++ rm ++ rp ++ c0 :: ct, cnt _ _ fun q => ?_⟩ t (by simp),
      dis [t] rm ⟨[b] ++ ra ++ rp ++ c0 :: ct, cnt _ _ fun q => ?_⟩ t (by simp), dis [t] (c0 :: ct) ⟨[b] ++ ra ++ rm ++ rp, cnt _ _ fun q => ?_⟩ t (by simp), ?_,
      dis [b] ra ⟨[t] ++ rm ++ rp ++ c0 :: ct, cnt _ _ fun q => ?_⟩ b (by simp), dis [b] (c0 :: ct) ⟨[t] ++ ra ++ rm ++ rp, cnt _ _ fun q => ?_⟩ b (by simp),
      fun e => dis [b] [t] ⟨ra ++ rm ++ rp ++ c0 :: ct, cnt _ _ fun q => ?_⟩ b (by simp) (by simp [e])⟩
    case refine_4 =>
      have : ((c0 :: ct ++ rm ++ ra) ++ ([b] ++ rp ++ [t])).Perm [ra, [b], rm, rp, [t], c0 :: ct].flatten := cnt _ _ fun q => by
        simp only [List.flatten_cons, List.flatten_nil, List.append_nil, List.count_append, List.count_cons, List.count_nil]
        omega
      exact (List.nodup_append.mp (this.nodup_iff.mpr hn)).1
    case refine_8 =>
      simp only [List.flatten_cons] at hn
      exact (List.nodup_append.mp hn).1
    all_goals
      simp only [List.count_append, List.count_cons, List.count_nil]
      omega
  obtain ⟨p1, p2, p3, na, t1, t2, t3, nra, w1, w2, w3⟩ := hd
  obtain ⟨u1, u2⟩ := a7 x hx
  obtain ⟨u3, u4⟩ := b7 x u1
  have hx0 : ∀ q ∈ t :: c0 :: ct, x q = false := by
    intro q hq
    rcases List.mem_cons.mp hq with rfl | hq
    · exact u2 q (by simp)
    · exact u4 q hq
  have hy0 : ∀ q ∈ t :: c0 :: ct, y q = false := fun q hq => by rw [hy q (p3 q hq), hx0 q hq]
  have hy1 : valQ ra y < valQ rm y := by
    rw [valQ_congr ra y x fun q hq => hy q (p1 q hq), valQ_congr rm y x fun q hq => hy q (p2 q hq)]
    exact h1
  have hla : rm.length = ct.length + 1 := hc
  have hlb : ra.length = ct.length + 2 := by omega
  -- the state before the addition
  have pre : ∀ z : Asg, (∀ q ∈ t :: c0 :: ct, z q = false) → valQ ra z < valQ rm z →
      subMap (c0 :: ct) rm ra z (ra.getD rm.length 0) = true ∧ timesPre ra rm t rm.length (c0 :: ct) z = flipQ t (subMap (c0 :: ct) rm ra z) ∧
      timesPre ra rm t rm.length (c0 :: ct) z t = true := by
    intro z hz hlt
    have hbit : subMap (c0 :: ct) rm ra z (ra.getD rm.length 0) = true := by
      obtain ⟨v, -⟩ := sub_value c0 ct rm ra na hla hlb z (fun q hq => hz q (by simp [hq]))
      rw [hz c0 (by simp)] at v
      have e1 := valQ_lt ra (subMap (c0 :: ct) rm ra z)
      have e2 := valQ_lt rm z
      have e3 := valQ_lt ra z
      have hP : (2 : ℤ) ^ ra.length = 2 * 2 ^ rm.length := by rw [ha, pow_succ, mul_comm]
      have hp : (2 : ℕ) ^ ra.length = 2 * 2 ^ rm.length := by rw [ha, pow_succ, mul_comm]
      have hpz : ((2 : ℤ) ^ rm.length) = ((2 ^ rm.length : ℕ) : ℤ) := by push_cast; rfl
      rw [hP, hpz] at v
      rw [hp] at e1 e3
      rw [top_bit ra rm.length ha (subMap (c0 :: ct) rm ra z), decide_eq_true_eq]
      have : ((valQ ra z : ℤ) - valQ rm z) % (2 * (2 ^ rm.length : ℕ)) = 2 * (2 ^ rm.length : ℕ) + valQ ra z - valQ rm z := by
        rw [← Int.add_emod_right, Int.emod_eq_of_lt (by omega) (by omega)]
        omega
      simp only [Bool.toNat_false, Nat.cast_zero, sub_zero] at v
      rw [this] at v
      omega
    have e : timesPre ra rm t rm.length (c0 :: ct) z = flipQ t (subMap (c0 :: ct) rm ra z) := by
      unfold timesPre
      simp only [hbit, if_true]
    refine ⟨hbit, e, ?_⟩
    rw [e, flipQ_self, subMap_keeps _ _ _ _ _ (fun h => t3 (by simpa using Or.inr h)) t1, hz t (by simp)]
    rfl
  obtain ⟨zx, hzx⟩ : ∃ z, z = timesPre ra rm t rm.length (c0 :: ct) x := ⟨_, rfl⟩
  obtain ⟨zy, hzy⟩ : ∃ z, z = timesPre ra rm t rm.length (c0 :: ct) y := ⟨_, rfl⟩
  obtain ⟨x1, x2, x3⟩ := pre x hx0 h1
  obtain ⟨y1, y2, y3⟩ := pre y hy0 hy1
  rw [← hzx] at x2 x3
  rw [← hzy] at y2 y3
  have hne : ∀ q ∈ c0 :: ct ++ rm ++ ra, q ≠ t := by
    rintro q hq rfl
    simp only [List.mem_append] at hq
    tauto
  have hzq : ∀ q ∈ c0 :: ct ++ rm ++ ra, zx q = subMap (c0 :: ct) rm ra x q := fun q hq => by rw [x2, flipQ_of_ne t q (hne q hq)]
  have hcong : ∀ q ∈ c0 :: ct ++ rm ++ ra, zx q = zy q := by
    intro q hq
    rw [hzq q hq, y2, flipQ_of_ne t q (hne q hq)]
    refine subMap_agree _ (c0 :: ct) rm ra x y (fun q h => by simp only [List.mem_append]; tauto) (fun q h => by simp only [List.mem_append]; tauto)
      (fun q h => by simp only [List.mem_append]; tauto) (fun q hq => (hy q ?_).symm) q hq
    simp only [List.mem_append] at hq
    rcases hq with (hq | hq) | hq
    · exact p3 q (List.mem_cons_of_mem _ hq)
    · exact p2 q hq
    · exact p1 q hq
  have hcarry : ¬ NoCarry (c0 :: ct) rm ra zx := by
    intro h5
    rw [noCarry_congr ct c0 rm ra hla hlb _ _ hzq, sub_noCarry ct c0 rm ra hla hlb na x (fun q hq => hx0 q (List.mem_cons_of_mem _ hq))] at h5
    have := valQ_le_of_bits rm ra (by omega) x h5
    omega
  obtain ⟨q, hq, v, k1, k2⟩ := add_tell ct c0 rm ra hla hlb na zx zy hcong hcarry
  -- the state after the fourth line
  have l3 := c5 x u3
  simp only [List.flatten_nil, List.not_mem_nil, false_implies, implies_true, if_true] at l3
  have l3' : runW rotAngle seg3 (ket x) = addW (c0 :: ct) rm ra zx := by
    rw [l3.1]
    simp only [← hzx, x3, if_true]
  have l4 : On {z | z q = v} (runW rotAngle seg4 (runW rotAngle seg3 (ket x))) := by
    have hon : On {z | z q = v ∧ Clean s3 z} (runW rotAngle seg3 (ket x)) := by
      refine on_iff.mpr fun z hz => ⟨?_, ?_⟩
      · rw [l3'] at hz
        exact on_iff.mp k1 z hz
      · rw [l3.1] at hz
        exact l3.2 z hz
    refine hon.map _ fun z hz => ?_
    exact (d5 z hz.2).mono fun w hw => (hw q hq).trans hz.1
  -- the state that the rest sends to `y`
  have hclean4 : ∀ z : Asg, (∀ p, p ∉ ra → p ∉ t :: c0 :: ct → z p = y p) → Clean s4 z := by
    intro z hz
    obtain ⟨x', hx'⟩ : ∃ x', x' = Function.update x b false := ⟨_, rfl⟩
    have g1 : Clean s2 x' := by
      intro p hp
      rw [hx']
      by_cases hpb : p = b
      · rw [hpb, Function.update_self]
      · rw [Function.update_of_ne hpb]; exact u3 p hp
    -- some basis state after the first three lines
    obtain ⟨w, hw1, hw2⟩ : ∃ w, Clean s3 w ∧ ∀ p, p ∉ ra → p ∉ t :: c0 :: ct → w p = x' p := by
      have hk : On {w | ∀ p, p ∉ ra → p ∉ t :: c0 :: ct → w p = x' p} (runW rotAngle seg3 (ket x')) := by
        rw [(c5 x' g1).1]
        simp only [List.flatten_nil, List.not_mem_nil, false_implies, implies_true, if_true]
        have hpk : ∀ p, p ∉ ra → p ∉ t :: c0 :: ct → timesPre ra rm t rm.length (c0 :: ct) x' p = x' p := by
          intro p g3 g4
          simp only [List.mem_cons, not_or] at g4
          unfold timesPre
          have : subMap (c0 :: ct) rm ra x' p = x' p := subMap_keeps _ _ _ _ _ (by simpa using g4.2.2) g3
          split
          · rw [flipQ_of_ne t p g4.1, this]
          · exact this
        split
        · exact (addW_keeps (c0 :: ct) rm ra _).mono fun w hw p g3 g4 => by
            rw [hw p (fun h => g4 (by simp only [List.mem_cons]; right; right; simpa using h)) g3, hpk p g3 g4]
        · exact On.ket fun p g3 g4 => hpk p g3 g4
      have hnz : runW rotAngle seg3 (ket x') ≠ 0 := by
        intro h0
        have := run_inj (seg := seg3) (n := s3.n) (by
          obtain ⟨sg, g5, g6, -⟩ := c3.seg
          have : sg = seg3 := List.append_cancel_left (g5.symm.trans c4)
          rw [← this]; exact g6) (φ := 0) (by rw [h0, map_zero])
        have h2 := congrArg (fun f : Wave => f x') this
        simp [ket] at h2
      obtain ⟨w, hw⟩ := Finsupp.support_nonempty_iff.mpr hnz
      refine ⟨w, ?_, on_iff.mp hk w hw⟩
      rw [(c5 x' g1).1] at hw
      exact (c5 x' g1).2 w hw
    have g7 : Clean s4 w := d4 w hw1 (by
      rw [hw2 b w1 (by simp only [List.mem_cons, not_or] at w2 ⊢; exact ⟨w3, w2⟩), hx', Function.update_self])
    intro p hpp
    have hout : p ∉ [ra, [b], rm, rp, [t], c0 :: ct].flatten := by
      intro hin
      have hin' : p ∈ [ra, [b], rm, rp, [t], c0 :: ct].flatten ++ L := List.mem_append_left _ hin
      rcases hpp with h | h
      · exact d3.not_pool hin' h
      · have := d3.mem_lt hin'; omega
    simp only [List.flatten_cons, List.flatten_nil, List.append_nil, List.mem_append, not_or] at hout
    have hpt : p ∉ t :: c0 :: ct := by
      simp only [List.mem_cons, List.not_mem_nil, or_false] at hout ⊢
      tauto
    rw [hz p hout.1 hpt, hy p (by tauto)]
    have := g7 p hpp
    rw [hw2 p hout.1 hpt, hx', Function.update_of_ne (by simpa using hout.2.1)] at this
    exact this
  have hkeepV : On {z | ∀ p, p ∉ ra → p ∉ t :: c0 :: ct → z p = y p} (addV (c0 :: ct) rm ra zy) := by
    refine (addV_keeps ct c0 rm ra hla hlb zy).mono fun z hz p g1 g2 => ?_
    simp only [List.mem_cons, not_or] at g2
    rw [hz p g2.2.2 g1, y2, flipQ_of_ne t p g2.1, subMap_keeps _ _ _ _ _ (by simpa using g2.2.2) g1]
  have hrest : runW rotAngle seg6 (runW rotAngle seg5 (addV (c0 :: ct) rm ra zy)) = ket y := by
    have hC4 : On {z | Clean s4 z} (addV (c0 :: ct) rm ra zy) := hkeepV.mono fun z hz => hclean4 z hz
    have e7 : runW rotAngle seg5 (addV (c0 :: ct) rm ra zy) = lift (fun z => ket (rotate 1 ra z)) (addV (c0 :: ct) rm ra zy) := by
      refine hC4.agree fun z hz => ?_
      rw [(e6 z hz).1, lift_ket]
      simp
    have hC5 : On {z | Clean s5 z} (lift (fun z => ket (rotate 1 ra z)) (addV (c0 :: ct) rm ra zy)) := by
      refine hC4.map _ fun z hz => ?_
      rw [lift_ket]
      have := (e6 z hz).2
      simp only [List.flatten_nil, List.not_mem_nil, false_implies, implies_true, if_true] at this
      exact on_iff.mpr this
    rw [e7]
    have e8 : runW rotAngle seg6 (lift (fun z => ket (rotate 1 ra z)) (addV (c0 :: ct) rm ra zy)) =
        lift (Verif.timesBwd ra rm t rm.length (c0 :: ct)) (lift (fun z => ket (rotate 1 ra z)) (addV (c0 :: ct) rm ra zy)) := by
      refine hC5.agree fun z hz => ?_
      rw [(f6 z hz).1, lift_ket]
      simp
    rw [e8, lift_lift_eq]
    have e9 : lift (fun z => lift (Verif.timesBwd ra rm t rm.length (c0 :: ct)) (ket (rotate 1 ra z))) (addV (c0 :: ct) rm ra zy) =
        lift (fun w => ket (addMap (c0 :: ct) rm ra (if w (ra.getD rm.length 0) = true then flipQ t w else w)))
          (lift (subV (c0 :: ct) rm ra) (addV (c0 :: ct) rm ra zy)) := by
      rw [lift_lift_eq]
      have hont : On {z | z t = true} (addV (c0 :: ct) rm ra zy) :=
        (addV_keeps ct c0 rm ra hla hlb zy).mono fun z hz => by
          rw [Set.mem_setOf_eq, hz t (fun h => t3 (List.mem_cons_of_mem _ h)) t1, y3]
      refine hont.agree fun z hz => ?_
      have hz' : z t = true := hz
      rw [lift_ket, lift_ket, lift_ket, timesBwd]
      simp only [(rotate_rotate ra nra (by omega) _).2, hz', if_true]
    rw [e9, subV_addV ct c0 rm ra hla hlb na, lift_ket]
    have hbit : zy (ra.getD rm.length 0) = true := by
      have hmem : ra.getD rm.length 0 ∈ ra := by rw [List.getD_eq_getElem _ _ (by omega)]; exact List.getElem_mem _
      rw [y2, flipQ_of_ne t _ (fun e => t1 (e ▸ hmem))]
      exact y1
    rw [if_pos hbit, y2, flipQ_flipQ, add_sub _ _ _ na]
  rw [hseg, runW_append, runW_append, runW_append, ← hrest] at r3
  have := run_inj e5 (run_inj f5 r3)
  rw [this] at l4
  exact k2 l4

end Verif
