import Verif.Proofs.QuietArith
import Verif.Proofs.Weighs

/-! # The modular circuits run for certain and do nothing if the conditions do not hold -/

namespace Verif
open Classical Complex RegOps CircuitBuilder TempBuilder Rooted

section
variable {β : Type} [Recursive β] [Rooted β] [SubSim β] {cs : List Reg}

/-! ## add_mod -/

theorem Quiet.addMod (ra rb rm : Reg) (h0 : ra ≠ []) (hm : rm.length = ra.length) (hb : rb.length = ra.length + 1) :
    Quiet cs (Arith.addMod [ra, rb, rm] : M β _) [ra, rb, rm] [ra, rb, rm].flatten {none} := by
  have hpos := List.length_pos_iff.mpr h0
  refine QuietT.quiet ?_
  rw [Arith.addMod, if_neg (by omega), if_neg (by omega)]
  refine QuietT.temp1 fun t => QuietT.temp hpos fun rc hc => ?_
  have hr : ∀ r ∈ [ra, rb, rm, [t], rc], r ≠ [] := by
    intro r hr
    simp only [List.mem_cons, List.not_mem_nil, or_false] at hr
    rcases hr with rfl | rfl | rfl | rfl | rfl
    · exact h0
    · rintro rfl; simp at hb
    · rintro rfl; simp at hm; omega
    · simp
    · rintro rfl; simp at hc; omega
  have hp : Quiet cs (Verif.program [ra, rb, rm, [t], rc]
        [.plain Arith.add [[(4, none)], [(0, none)], [(1, none)]],
         .plain Arith.addInv [[(4, none)], [(2, none)], [(1, none)]],
         .control none (Verif.op1 Gate.x) [[(1, some [ra.length])], [(3, none)]],
         .control none Arith.add [[(3, none)], [(4, none)], [(2, none)], [(1, none)]],
         .plain Arith.addInv [[(4, none)], [(0, none)], [(1, none)]],
         .control (some 0) (Verif.op1 Gate.x) [[(1, some [ra.length])], [(3, none)]],
         .plain Arith.add [[(4, none)], [(0, none)], [(1, none)]]] : M β _) [ra, rb, rm, [t], rc] [ra, rb, rm, [t], rc].flatten {some t} := by
    refine Quiet.program hr fun hn => ?_
    have hr0 := hr ra (by simp)
    have hr1 := hr rb (by simp)
    have hr2 := hr rm (by simp)
    have hr4 := hr rc (by simp)
    obtain ⟨n, hN⟩ : ∃ n, n = ra.length := ⟨_, rfl⟩
    rw [← hN]
    rw [← hN] at hm hb hc
    have ha := hN.symm
    obtain ⟨rs, hrs⟩ : ∃ rs, rs = [ra, rb, rm, [t], rc] := ⟨_, rfl⟩
    rw [← hrs] at hn ⊢
    have g0 : groupReg rs [(0, none)] = ra := by rw [groupReg_all, hrs]; rfl
    have g1 : groupReg rs [(1, none)] = rb := by rw [groupReg_all, hrs]; rfl
    have g2 : groupReg rs [(2, none)] = rm := by rw [groupReg_all, hrs]; rfl
    have g3 : groupReg rs [(3, none)] = [t] := by rw [groupReg_all, hrs]; rfl
    have g4 : groupReg rs [(4, none)] = rc := by rw [groupReg_all, hrs]; rfl
    have gn : groupReg rs [(1, some [n])] = [rb.getD n 0] := by rw [groupReg_one, hrs]; rfl
    have va : ValidGroups rs [[(4, none)], [(0, none)], [(1, none)]] :=
      valid_sels rs [(4, none), (0, none), (1, none)] (by simp) (by rw [hrs]; simp [SelOK, hr0, hr1, hr4])
    have vm : ValidGroups rs [[(4, none)], [(2, none)], [(1, none)]] :=
      valid_sels rs [(4, none), (2, none), (1, none)] (by simp) (by rw [hrs]; simp [SelOK, hr2, hr1, hr4])
    have vc : ValidGroups rs [[(3, none)], [(4, none)], [(2, none)], [(1, none)]] :=
      valid_sels rs [(3, none), (4, none), (2, none), (1, none)] (by simp) (by rw [hrs]; simp [SelOK, hr2, hr1, hr4])
    have vx : ValidGroups rs [[(1, some [n])], [(3, none)]] :=
      valid_sels rs [(1, some [n]), (3, none)] (by simp) (by rw [hrs]; simp [SelOK, hb])
    have mA := Quiet.add (β := β) (cs := cs) rc ra rb hr4 (by omega) (by omega)
    have mS := Quiet.addInv (β := β) (cs := cs) rc ra rb hr4 (by omega) (by omega)
    have mM := Quiet.addInv (β := β) (cs := cs) rc rm rb hr4 (by omega) (by omega)
    have mC := Quiet.add (β := Conditioned β) (cs := [t] :: cs) rc rm rb hr4 (by omega) (by omega)
    have mX := Quiet.x (β := Conditioned β) (cs := [rb.getD n 0] :: cs) t
    have h1 : Quiet cs _ _ _ _ := Quiet.lines_nil (β := β) (rs := rs)
    have h2 := Quiet.plain hn va (as := [rc, ra, rb]) (by simp only [List.map_cons, List.map_nil, g0, g1, g4]) mA h1
    have h3 := Quiet.masked (m := 0) hn vx gn (as := [[t]]) (by simp only [List.map_cons, List.map_nil, g3]) (by simp) mX h2
    have h4 := Quiet.plain hn va (as := [rc, ra, rb]) (by simp only [List.map_cons, List.map_nil, g0, g1, g4]) mS h3
    have h5 := Quiet.control hn vc g3 (as := [rc, rm, rb]) (by simp only [List.map_cons, List.map_nil, g1, g2, g4]) (by simp) mC h4
    have h6 := Quiet.control hn vx gn (as := [[t]]) (by simp only [List.map_cons, List.map_nil, g3]) (by simp) mX h5
    have h7 := Quiet.plain hn vm (as := [rc, rm, rb]) (by simp only [List.map_cons, List.map_nil, g1, g2, g4]) mM h6
    have h8 := Quiet.plain hn va (as := [rc, ra, rb]) (by simp only [List.map_cons, List.map_nil, g0, g1, g4]) mA h7
    exact h8.congr fun o ho => .inr (.inr (.inl ho))
  have hfin := QuietT.bind (t := rc ++ ([t] ++ [])) (Q := [ra, rb, rm].flatten) (c := [ra, rb, rm]) (f := fun rs => (match rs with
      | [ra, rb, rm, rt, rc] => do
        returnTemp rt
        returnTemp rc
        Pure.pure [ra, rb, rm]
      | _ => throw .panic : M β _)) hp (by
        simp only [List.flatten_cons, List.flatten_nil, List.append_nil]
        rw [List.perm_iff_count]
        intro q
        simp only [List.count_append, List.count_cons, List.count_nil]
        omega) (T' := ∅)
    (QuietT.end2 (by simp) (hr rc (by simp)) (by simpa using List.perm_append_comm (l₂ := [t])))
  intro s L hs ho
  refine (hfin s L hs ho).congr (List.Perm.refl _) (fun x hx _ => ⟨hx, rfl⟩) fun o ho => ⟨ho, t, by simp, rfl⟩

theorem turns_addMod (rs : List Reg) : Adds (Turns 0) (Arith.addMod rs : M LocalBuilder _) := Adds.addMod (P := Turns 0) rs

theorem Quiet.addModInv (ra rb rm : Reg) (h0 : ra ≠ []) (hm : rm.length = ra.length) (hb : rb.length = ra.length + 1) :
    Quiet cs (Arith.addModInv [ra, rb, rm] : M β _) [ra, rb, rm] [ra, rb, rm].flatten ∅ := by
  have hpos := List.length_pos_iff.mpr h0
  have h1 : rb ≠ [] := by rintro rfl; simp at hb
  have h2 : rm ≠ [] := by rintro rfl; simp at hm; omega
  exact Quiet.inverse (rs := [ra, rb, rm]) (by simp) (by simp [h0, h1, h2])
    (Quiet.addMod (β := LocalBuilder) (cs := []) (List.range' 0 ra.length) (List.range' (0 + ra.length) rb.length)
      (List.range' (0 + ra.length + rb.length) rm.length) (by simp; omega) (by simpa using hm) (by simpa using hb)) (.inl (by simp)) turns_addMod

/-! ## times_mod -/

theorem Quiet.fold {α ι : Type} {f : α → ι → M β α} {a : α} {Q : List ℕ} {T : ι → Set (Option ℕ)} (l : List ι)
    (h : ∀ i ∈ l, Quiet cs (f a i) a Q (T i)) : Quiet cs (l.foldlM f a) a Q {o | ∃ i ∈ l, o ∈ T i} := by
  induction l with
  | nil => exact (Sure.pure (S := Idle cs) (ang := rotAngle) (β := β) a Q).congr (fun x hx => ⟨hx, rfl⟩) (by simp)
  | cons i l ih =>
    rw [List.foldlM_cons]
    refine (Quiet.bind (h i (by simp)) (ih fun j hj => h j (by simp [hj]))).congr fun o ho => ?_
    obtain ⟨j, hj, ho⟩ := ho
    rcases List.mem_cons.mp hj with rfl | hj
    · exact .inl ho
    · exact .inr ⟨j, hj, ho⟩

theorem at_range (r : Reg) (n : ℕ) (hn : n ≤ r.length) : at' r (List.range n) = r.take n := by
  unfold at'
  refine List.ext_getElem (by simp [hn]) fun i h1 h2 => ?_
  simp only [List.getElem_map, List.getElem_range, List.getElem_take]
  rw [List.getD_eq_getElem]

/-- the first loop of `times_mod` -/
theorem Quiet.timesStep {ra rb rm rp rt rc : Reg} {n i : ℕ} (hn0 : 0 < n) (hm : rm.length = n) (ha : ra.length = n + 1) (hp : rp.length = n + 1)
    (hc : rc.length = n) (ht : rt.length = rb.length) (hi : i < rb.length) :
    Quiet cs (Verif.program [ra, rb, rm, rp, rt, rc]
        [.plain Arith.addInv [[(5, none)], [(2, none)], [(0, none)]],
         .control none (Verif.op1 Gate.x) [[(0, some [n])], [(4, some [i])]],
         .control none Arith.add [[(4, some [i])], [(5, none)], [(2, none)], [(0, none)]],
         .control none Arith.addMod [[(1, some [i])], [(0, some (List.range n))], [(3, none)], [(2, none)]],
         .plain Arith.rshift [[(0, none)]]] : M β _) [ra, rb, rm, rp, rt, rc] [ra, rb, rm, rp, rt, rc].flatten {some (rt.getD i 0)} := by
  have ne : ∀ r : Reg, 0 < r.length → r ≠ [] := fun r h => List.length_pos_iff.mp h
  have hr0 := ne ra (by omega)
  have hr1 := ne rb (by omega)
  have hr2 := ne rm (by omega)
  have hr3 := ne rp (by omega)
  have hr4 := ne rt (by omega)
  have hr5 := ne rc (by omega)
  refine Quiet.program (by simp [hr0, hr1, hr2, hr3, hr4, hr5]) fun hn => ?_
  obtain ⟨rs, hrs⟩ : ∃ rs, rs = [ra, rb, rm, rp, rt, rc] := ⟨_, rfl⟩
  rw [← hrs] at hn ⊢
  have g0 : groupReg rs [(0, none)] = ra := by rw [groupReg_all, hrs]; rfl
  have g2 : groupReg rs [(2, none)] = rm := by rw [groupReg_all, hrs]; rfl
  have g3 : groupReg rs [(3, none)] = rp := by rw [groupReg_all, hrs]; rfl
  have g5 : groupReg rs [(5, none)] = rc := by rw [groupReg_all, hrs]; rfl
  have gn : groupReg rs [(0, some [n])] = [ra.getD n 0] := by rw [groupReg_one, hrs]; rfl
  have gr : groupReg rs [(0, some (List.range n))] = ra.take n := by rw [groupReg_one, hrs]; exact at_range ra n (by omega)
  have gb : groupReg rs [(1, some [i])] = [rb.getD i 0] := by rw [groupReg_one, hrs]; rfl
  have gt : groupReg rs [(4, some [i])] = [rt.getD i 0] := by rw [groupReg_one, hrs]; rfl
  have v1 : ValidGroups rs [[(5, none)], [(2, none)], [(0, none)]] :=
    valid_sels rs [(5, none), (2, none), (0, none)] (by simp) (by rw [hrs]; simp [SelOK, hr0, hr2, hr5])
  have v2 : ValidGroups rs [[(0, some [n])], [(4, some [i])]] :=
    valid_sels rs [(0, some [n]), (4, some [i])] (by simp) (by rw [hrs]; simp [SelOK, ha, ht, hi])
  have v3 : ValidGroups rs [[(4, some [i])], [(5, none)], [(2, none)], [(0, none)]] :=
    valid_sels rs [(4, some [i]), (5, none), (2, none), (0, none)] (by simp) (by rw [hrs]; simp [SelOK, hr0, hr2, hr5, ht, hi])
  have v4 : ValidGroups rs [[(1, some [i])], [(0, some (List.range n))], [(3, none)], [(2, none)]] :=
    valid_sels rs [(1, some [i]), (0, some (List.range n)), (3, none), (2, none)] (by simp) (by
      rw [hrs]
      simp only [List.mem_cons, List.not_mem_nil, or_false, forall_eq_or_imp, forall_eq]
      refine ⟨by simp [SelOK, hi], ⟨by simp, by simp; omega, List.nodup_range, ?_⟩, by simp [SelOK, hr3], by simp [SelOK, hr2]⟩
      intro j hj
      have := List.mem_range.mp hj
      show j < ra.length
      omega)
  have v5 : ValidGroups rs [[(0, none)]] := valid_sels rs [(0, none)] (by simp) (by rw [hrs]; simp [SelOK, hr0])
  have m1 := Quiet.addInv (β := β) (cs := cs) rc rm ra hr5 (by omega) (by omega)
  have m2 := Quiet.x (β := Conditioned β) (cs := [ra.getD n 0] :: cs) (rt.getD i 0)
  have m3 := Quiet.add (β := Conditioned β) (cs := [rt.getD i 0] :: cs) rc rm ra hr5 (by omega) (by omega)
  have m4 := Quiet.addMod (β := Conditioned β) (cs := [rb.getD i 0] :: cs) (ra.take n) rp rm (ne _ (by simp; omega)) (by simp; omega) (by simp; omega)
  have m5 := Quiet.rshift0 (β := β) (cs := cs) ra hr0
  have h1 : Quiet cs _ _ _ _ := Quiet.lines_nil (β := β) (rs := rs)
  have h2 := Quiet.plain hn v5 (as := [ra]) (by simp only [List.map_cons, List.map_nil, g0]) m5 h1
  have h3 := Quiet.control hn v4 gb (as := [ra.take n, rp, rm]) (by simp only [List.map_cons, List.map_nil, gr, g3, g2]) (by simp) m4 h2
  have h4 := Quiet.control hn v3 gt (as := [rc, rm, ra]) (by simp only [List.map_cons, List.map_nil, g5, g2, g0]) (by simp) m3 h3
  have h5 := Quiet.control hn v2 gn (as := [[rt.getD i 0]]) (by simp only [List.map_cons, List.map_nil, gt]) (by simp) m2 h4
  have h6 := Quiet.plain hn v1 (as := [rc, rm, ra]) (by simp only [List.map_cons, List.map_nil, g5, g2, g0]) m1 h5
  exact h6.congr fun o ho => .inr (.inl ho)

/-- the second loop of `times_mod` -/
theorem Quiet.timesBack {ra rm rt rc : Reg} {n i : ℕ} (hn0 : 0 < n) (hm : rm.length = n) (ha : ra.length = n + 1)
    (hc : rc.length = n) (hi : i < rt.length) :
    Quiet cs (Verif.program [ra, rm, rt, rc]
            [.plain Arith.lshift [[(0, none)]],
             .control none Arith.addInv [[(2, some [i])], [(3, none)], [(1, none)], [(0, none)]],
             .control none (Verif.op1 Gate.x) [[(0, some [n])], [(2, some [i])]],
             .plain Arith.add [[(3, none)], [(1, none)], [(0, none)]]] : M β _) [ra, rm, rt, rc] [ra, rm, rt, rc].flatten ∅ := by
  have ne : ∀ r : Reg, 0 < r.length → r ≠ [] := fun r h => List.length_pos_iff.mp h
  have hr0 := ne ra (by omega)
  have hr1 := ne rm (by omega)
  have hr2 := ne rt (by omega)
  have hr3 := ne rc (by omega)
  refine Quiet.program (by simp [hr0, hr1, hr2, hr3]) fun hn => ?_
  obtain ⟨rs, hrs⟩ : ∃ rs, rs = [ra, rm, rt, rc] := ⟨_, rfl⟩
  rw [← hrs] at hn ⊢
  have g0 : groupReg rs [(0, none)] = ra := by rw [groupReg_all, hrs]; rfl
  have g1 : groupReg rs [(1, none)] = rm := by rw [groupReg_all, hrs]; rfl
  have g3 : groupReg rs [(3, none)] = rc := by rw [groupReg_all, hrs]; rfl
  have gn : groupReg rs [(0, some [n])] = [ra.getD n 0] := by rw [groupReg_one, hrs]; rfl
  have gt : groupReg rs [(2, some [i])] = [rt.getD i 0] := by rw [groupReg_one, hrs]; rfl
  have v1 : ValidGroups rs [[(0, none)]] := valid_sels rs [(0, none)] (by simp) (by rw [hrs]; simp [SelOK, hr0])
  have v2 : ValidGroups rs [[(2, some [i])], [(3, none)], [(1, none)], [(0, none)]] :=
    valid_sels rs [(2, some [i]), (3, none), (1, none), (0, none)] (by simp) (by rw [hrs]; simp [SelOK, hr0, hr1, hr3, hi])
  have v3 : ValidGroups rs [[(0, some [n])], [(2, some [i])]] :=
    valid_sels rs [(0, some [n]), (2, some [i])] (by simp) (by rw [hrs]; simp [SelOK, ha, hi])
  have v4 : ValidGroups rs [[(3, none)], [(1, none)], [(0, none)]] :=
    valid_sels rs [(3, none), (1, none), (0, none)] (by simp) (by rw [hrs]; simp [SelOK, hr0, hr1, hr3])
  have m1 := Quiet.lshift (β := β) (cs := cs) ra (by omega)
  have m2 := Quiet.addInv (β := Conditioned β) (cs := [rt.getD i 0] :: cs) rc rm ra hr3 (by omega) (by omega)
  have m3 := Quiet.x (β := Conditioned β) (cs := [ra.getD n 0] :: cs) (rt.getD i 0)
  have m4 := Quiet.add (β := β) (cs := cs) rc rm ra hr3 (by omega) (by omega)
  have h1 : Quiet cs _ _ _ _ := Quiet.lines_nil (β := β) (rs := rs)
  have h2 := Quiet.plain hn v4 (as := [rc, rm, ra]) (by simp only [List.map_cons, List.map_nil, g3, g1, g0]) m4 h1
  have h3 := Quiet.control hn v3 gn (as := [[rt.getD i 0]]) (by simp only [List.map_cons, List.map_nil, gt]) (by simp) m3 h2
  have h4 := Quiet.control hn v2 gt (as := [rc, rm, ra]) (by simp only [List.map_cons, List.map_nil, g3, g1, g0]) (by simp) m2 h3
  have h5 := Quiet.plain hn v1 (as := [ra]) (by simp only [List.map_cons, List.map_nil, g0]) m1 h4
  exact h5.congr fun o ho => ho.elim

theorem Quiet.timesMod (ra rb rm rp : Reg) (hb : rb ≠ []) (hm : rm ≠ []) (ha : ra.length = rm.length + 1) (hp : rp.length = rm.length + 1) :
    Quiet cs (Arith.timesMod [ra, rb, rm, rp] : M β _) [ra, rb, rm, rp] [ra, rb, rm, rp].flatten {none} := by
  have hn0 := List.length_pos_iff.mpr hm
  have hk0 := List.length_pos_iff.mpr hb
  refine QuietT.quiet ?_
  rw [Arith.timesMod, if_neg (by omega), if_neg (by omega)]
  refine QuietT.temp hk0 fun rt ht => QuietT.temp hn0 fun rc hc => ?_
  have hr4 : rt ≠ [] := List.length_pos_iff.mp (by omega)
  have hr5 : rc ≠ [] := List.length_pos_iff.mp (by omega)
  have l1 := Quiet.fold (cs := cs) (β := β) (a := [ra, rb, rm, rp, rt, rc]) (Q := [ra, rb, rm, rp, rt, rc].flatten) (List.range rb.length) (f := fun rs indx => Verif.program rs
        [.plain Arith.addInv [[(5, none)], [(2, none)], [(0, none)]],
         .control none (Verif.op1 Gate.x) [[(0, some [rm.length])], [(4, some [indx])]],
         .control none Arith.add [[(4, some [indx])], [(5, none)], [(2, none)], [(0, none)]],
         .control none Arith.addMod [[(1, some [indx])], [(0, some (List.range rm.length))], [(3, none)], [(2, none)]],
         .plain Arith.rshift [[(0, none)]]]) fun i hi => Quiet.timesStep hn0 rfl ha hp hc ht (List.mem_range.mp hi)
  have hperm : [ra, rb, rm, rp, rt, rc].flatten.Perm ([ra, rb, rm, rp].flatten ++ (rc ++ (rt ++ []))) := by
    simp only [List.flatten_cons, List.flatten_nil, List.append_nil]
    rw [List.perm_iff_count]
    intro q
    simp only [List.count_append]
    omega
  refine QuietT.congr (QuietT.bind (t := rc ++ (rt ++ [])) (Q := [ra, rb, rm, rp].flatten) (T' := ∅) l1 hperm ?_) fun o ho => ⟨ho, rt.getD 0 0, ?_, 0, by simpa using hk0, rfl⟩
  · beta_reduce
    refine QuietT.congr (QuietT.bind (t := rc ++ (rt ++ [])) (Q := [ra, rb, rm, rp].flatten) (T' := ∅) (a := [ra, rb, rm, rp, rt, rc])
      (Quiet.fold (T := fun _ => ∅) _ fun i hi => ?_) hperm (QuietT.end2 hr5 hr4 (by simp))) fun o ho => ho.elim
    refine Quiet.congr (Quiet.bind (a := [ra, rm, rt, rc]) (T := ∅) (T' := ∅) ?_ (Sure.pure _ _)) fun o ho => ho.elim
    refine Sure.of_nodup fun hn => Sure.mono (Quiet.timesBack hn0 rfl ha hc (by simp at hi; omega)) ?_ fun q hq => by simp at hq ⊢; tauto
    have hsub : List.Sublist [ra, rm, rt, rc].flatten [ra, rb, rm, rp, rt, rc].flatten := by
      simp only [List.flatten_cons, List.flatten_nil, List.append_nil]
      refine (List.Sublist.refl ra).append ?_
      refine List.Sublist.trans ?_ (List.sublist_append_right rb _)
      exact (List.Sublist.refl rm).append (List.sublist_append_right rp _)
    exact hn.sublist hsub
  · obtain ⟨t0, tt, rfl⟩ := List.exists_cons_of_ne_nil hr4
    simp

theorem turns_timesMod (rs : List Reg) : Adds (Turns 0) (Arith.timesMod rs : M LocalBuilder _) := Adds.timesMod (P := Turns 0) rs

theorem Quiet.timesModInv (ra rb rm rp : Reg) (hb : rb ≠ []) (hm : rm ≠ []) (ha : ra.length = rm.length + 1) (hp : rp.length = rm.length + 1) :
    Quiet cs (Arith.timesModInv [ra, rb, rm, rp] : M β _) [ra, rb, rm, rp] [ra, rb, rm, rp].flatten ∅ := by
  have h0 : ra ≠ [] := List.length_pos_iff.mp (by omega)
  have h1 : rp ≠ [] := List.length_pos_iff.mp (by omega)
  have hn0 := List.length_pos_iff.mpr hm
  have hk0 := List.length_pos_iff.mpr hb
  exact Quiet.inverse (rs := [ra, rb, rm, rp]) (by simp) (by simp [h0, h1, hb, hm])
    (Quiet.timesMod (β := LocalBuilder) (cs := []) (List.range' 0 ra.length) (List.range' (0 + ra.length) rb.length)
      (List.range' (0 + ra.length + rb.length) rm.length) (List.range' (0 + ra.length + rb.length + rm.length) rp.length)
      (by simp; omega) (by simp; omega) (by simpa using ha) (by simpa using hp)) (.inl (by simp)) turns_timesMod

/-! ## square_mod -/

theorem Quiet.squareMod (ra rm rq : Reg) (hm : rm ≠ []) (ha : ra.length = rm.length + 1) (hq : rq.length = rm.length + 1) :
    Quiet cs (Arith.squareMod [ra, rm, rq] : M β _) [ra, rm, rq] [ra, rm, rq].flatten {none} := by
  have hn0 := List.length_pos_iff.mpr hm
  have h0 : ra ≠ [] := List.length_pos_iff.mp (by omega)
  have h2 : rq ≠ [] := List.length_pos_iff.mp (by omega)
  refine QuietT.quiet ?_
  rw [Arith.squareMod, if_neg (by omega), if_neg (by omega)]
  refine QuietT.temp hn0 fun rt ht => ?_
  have h3 : rt ≠ [] := List.length_pos_iff.mp (by omega)
  have hp : Quiet cs (Verif.program [ra, rm, rq, rt]
        [.plain Arith.copy [[(0, some (List.range rm.length))], [(3, none)]],
         .plain Arith.timesMod [[(0, none)], [(3, none)], [(1, none)], [(2, none)]],
         .plain Arith.copyInv [[(0, some (List.range rm.length))], [(3, none)]]] : M β _) [ra, rm, rq, rt] [ra, rm, rq, rt].flatten {some (rt.getD 0 0)} := by
    refine Quiet.program (by simp [h0, hm, h2, h3]) fun hn => ?_
    obtain ⟨rs, hrs⟩ : ∃ rs, rs = [ra, rm, rq, rt] := ⟨_, rfl⟩
    rw [← hrs] at hn ⊢
    have g0 : groupReg rs [(0, none)] = ra := by rw [groupReg_all, hrs]; rfl
    have g1 : groupReg rs [(1, none)] = rm := by rw [groupReg_all, hrs]; rfl
    have g2 : groupReg rs [(2, none)] = rq := by rw [groupReg_all, hrs]; rfl
    have g3 : groupReg rs [(3, none)] = rt := by rw [groupReg_all, hrs]; rfl
    have gr : groupReg rs [(0, some (List.range rm.length))] = ra.take rm.length := by rw [groupReg_one, hrs]; exact at_range ra _ (by omega)
    have v1 : ValidGroups rs [[(0, some (List.range rm.length))], [(3, none)]] :=
      valid_sels rs [(0, some (List.range rm.length)), (3, none)] (by simp) (by
        rw [hrs]
        simp only [List.mem_cons, List.not_mem_nil, or_false, forall_eq_or_imp, forall_eq]
        refine ⟨⟨by simp, by simpa using hm, List.nodup_range, ?_⟩, by simp [SelOK, h3]⟩
        intro j hj
        have := List.mem_range.mp hj
        show j < ra.length
        omega)
    have v2 : ValidGroups rs [[(0, none)], [(3, none)], [(1, none)], [(2, none)]] :=
      valid_sels rs [(0, none), (3, none), (1, none), (2, none)] (by simp) (by rw [hrs]; simp [SelOK, h0, hm, h2, h3])
    have h4 : ra.take rm.length ≠ [] := List.length_pos_iff.mp (by simp; omega)
    have m1 := Quiet.copy (β := β) (cs := cs) (ra.take rm.length) rt h4 (by simp; omega) 0 (by omega)
    have m2 := Quiet.timesMod (β := β) (cs := cs) ra rt rm rq h3 hm ha hq
    have m3 := Quiet.copyInv (β := β) (cs := cs) (ra.take rm.length) rt h4 (by simp; omega)
    have k1 : Quiet cs _ _ _ _ := Quiet.lines_nil (β := β) (rs := rs)
    have k2 := Quiet.plain hn v1 (as := [ra.take rm.length, rt]) (by simp only [List.map_cons, List.map_nil, gr, g3]) m3 k1
    have k3 := Quiet.plain hn v2 (as := [ra, rt, rm, rq]) (by simp only [List.map_cons, List.map_nil, g0, g1, g2, g3]) m2 k2
    have k4 := Quiet.plain hn v1 (as := [ra.take rm.length, rt]) (by simp only [List.map_cons, List.map_nil, gr, g3]) m1 k3
    exact k4.congr fun o ho => .inl ho
  refine QuietT.congr (QuietT.bind (t := rt ++ []) (Q := [ra, rm, rq].flatten) (T' := ∅) hp (by simp) ?_) fun o ho => ⟨ho, rt.getD 0 0, ?_, rfl⟩
  · exact QuietT.end1 h3 (by simp)
  · obtain ⟨t0, tt, rfl⟩ := List.exists_cons_of_ne_nil h3
    simp

theorem turns_squareMod (rs : List Reg) : Adds (Turns 0) (Arith.squareMod rs : M LocalBuilder _) := Adds.squareMod (P := Turns 0) rs

theorem Quiet.squareModInv (ra rm rq : Reg) (hm : rm ≠ []) (ha : ra.length = rm.length + 1) (hq : rq.length = rm.length + 1) :
    Quiet cs (Arith.squareModInv [ra, rm, rq] : M β _) [ra, rm, rq] [ra, rm, rq].flatten ∅ := by
  have hn0 := List.length_pos_iff.mpr hm
  have h0 : ra ≠ [] := List.length_pos_iff.mp (by omega)
  have h1 : rq ≠ [] := List.length_pos_iff.mp (by omega)
  exact Quiet.inverse (rs := [ra, rm, rq]) (by simp) (by simp [h0, h1, hm])
    (Quiet.squareMod (β := LocalBuilder) (cs := []) (List.range' 0 ra.length) (List.range' (0 + ra.length) rm.length)
      (List.range' (0 + ra.length + rm.length) rq.length) (by simp; omega) (by simpa using ha) (by simpa using hq)) (.inl (by simp)) turns_squareMod

/-! ## exp_mod -/

theorem Quiet.expModF (d : ℕ) (ra rb rm rp re : Reg) (hd : rb.length ≤ d) (hb : rb ≠ []) (hm : rm ≠ []) (ha : ra.length = rm.length + 1)
    (hp : rp.length = rm.length + 1) (he : re.length = rm.length + 1) :
    Quiet cs (Arith.expModF d [ra, rb, rm, rp, re] : M β _) [ra, rb, rm, rp, re] [ra, rb, rm, rp, re].flatten {none} := by
  induction d generalizing ra rb rp re with
  | zero => simp at hd; exact absurd hd hb
  | succ d ih =>
    have hn0 := List.length_pos_iff.mpr hm
    have hk0 := List.length_pos_iff.mpr hb
    have h0 : ra ≠ [] := List.length_pos_iff.mp (by omega)
    have h3 : rp ≠ [] := List.length_pos_iff.mp (by omega)
    have h4 : re ≠ [] := List.length_pos_iff.mp (by omega)
    rw [Arith.expModF, if_neg (by omega), if_neg (by omega), if_neg (by omega)]
    by_cases hk : rb.length = 1
    · rw [if_pos hk]
      refine Quiet.program (by simp [h0, hm, hb, h3, h4]) fun hn => ?_
      obtain ⟨rs, hrs⟩ : ∃ rs, rs = [ra, rb, rm, rp, re] := ⟨_, rfl⟩
      rw [← hrs] at hn ⊢
      have g0 : groupReg rs [(0, none)] = ra := by rw [groupReg_all, hrs]; rfl
      have g1 : groupReg rs [(1, some [0])] = [rb.getD 0 0] := by rw [groupReg_one, hrs]; rfl
      have g2 : groupReg rs [(2, none)] = rm := by rw [groupReg_all, hrs]; rfl
      have g3 : groupReg rs [(3, none)] = rp := by rw [groupReg_all, hrs]; rfl
      have g4 : groupReg rs [(4, none)] = re := by rw [groupReg_all, hrs]; rfl
      have v1 : ValidGroups rs [[(1, some [0])], [(3, none)], [(4, none)]] :=
        valid_sels rs [(1, some [0]), (3, none), (4, none)] (by simp) (by rw [hrs]; simp [SelOK, h3, h4, hk])
      have v2 : ValidGroups rs [[(1, some [0])], [(0, none)], [(3, none)], [(2, none)], [(4, none)]] :=
        valid_sels rs [(1, some [0]), (0, none), (3, none), (2, none), (4, none)] (by simp) (by rw [hrs]; simp [SelOK, h0, hm, h3, h4, hk])
      have m1 := Quiet.copy (β := Conditioned β) (cs := [rb.getD 0 0] :: cs) rp re h3 (by omega) 0 (by omega)
      have m2 := Quiet.timesMod (β := Conditioned β) (cs := [rb.getD 0 0] :: cs) ra rp rm re h3 hm ha he
      have k1 : Quiet cs _ _ _ _ := Quiet.lines_nil (β := β) (rs := rs)
      have k2 := Quiet.control hn v2 g1 (as := [ra, rp, rm, re]) (by simp only [List.map_cons, List.map_nil, g0, g3, g2, g4]) (by simp) m2 k1
      have k3 := Quiet.masked (m := 0) hn v1 g1 (as := [rp, re]) (by simp only [List.map_cons, List.map_nil, g3, g4]) (by simp) m1 k2
      exact k3.congr fun o ho => .inr (.inl ho)
    · rw [if_neg hk]
      refine QuietT.quiet ?_
      refine QuietT.temp (by omega) fun ru hu => QuietT.temp (by omega) fun rv hv => ?_
      have h5 : ru ≠ [] := List.length_pos_iff.mp (by omega)
      have h6 : rv ≠ [] := List.length_pos_iff.mp (by omega)
      have hpr : Quiet cs (Verif.program [ra, rb, rm, rp, re, ru, rv]
        [.control (some 0) Arith.copy [[(1, some [0])], [(3, none)], [(6, none)]],
         .control none Arith.timesMod [[(1, some [0])], [(0, none)], [(3, none)], [(2, none)], [(4, none)]],
         .plain Arith.squareMod [[(0, none)], [(2, none)], [(5, none)]],
         .plain (Arith.expModF d) [[(5, none)], [(1, some (List.range' 1 (rb.length - 1)))], [(2, none)], [(6, none)], [(4, none)]],
         .plain Arith.squareModInv [[(0, none)], [(2, none)], [(5, none)]],
         .control none Arith.timesModInv [[(1, some [0])], [(0, none)], [(3, none)], [(2, none)], [(4, none)]],
         .control (some 0) Arith.copyInv [[(1, some [0])], [(3, none)], [(6, none)]]] : M β _) [ra, rb, rm, rp, re, ru, rv]
          [ra, rb, rm, rp, re, ru, rv].flatten {some (rv.getD 0 0)} := by
        refine Quiet.program (by simp [h0, hm, hb, h3, h4, h5, h6]) fun hn => ?_
        obtain ⟨b0, bt, rfl⟩ := List.exists_cons_of_ne_nil hb
        obtain ⟨rs, hrs⟩ : ∃ rs, rs = [ra, b0 :: bt, rm, rp, re, ru, rv] := ⟨_, rfl⟩
        rw [← hrs] at hn ⊢
        have hbt : bt ≠ [] := by rintro rfl; simp at hk
        have hln : (b0 :: bt).length - 1 = bt.length := by simp
        rw [hln]
        have g0 : groupReg rs [(0, none)] = ra := by rw [groupReg_all, hrs]; rfl
        have g1 : groupReg rs [(1, some [0])] = [b0] := by rw [groupReg_one, hrs]; rfl
        have g1' : groupReg rs [(1, some (List.range' 1 bt.length))] = bt := by rw [groupReg_one, hrs]; exact at_tail b0 bt
        have g2 : groupReg rs [(2, none)] = rm := by rw [groupReg_all, hrs]; rfl
        have g3 : groupReg rs [(3, none)] = rp := by rw [groupReg_all, hrs]; rfl
        have g4 : groupReg rs [(4, none)] = re := by rw [groupReg_all, hrs]; rfl
        have g5 : groupReg rs [(5, none)] = ru := by rw [groupReg_all, hrs]; rfl
        have g6 : groupReg rs [(6, none)] = rv := by rw [groupReg_all, hrs]; rfl
        have v1 : ValidGroups rs [[(1, some [0])], [(3, none)], [(6, none)]] :=
          valid_sels rs [(1, some [0]), (3, none), (6, none)] (by simp) (by rw [hrs]; simp [SelOK, h3, h6])
        have v2 : ValidGroups rs [[(1, some [0])], [(0, none)], [(3, none)], [(2, none)], [(4, none)]] :=
          valid_sels rs [(1, some [0]), (0, none), (3, none), (2, none), (4, none)] (by simp) (by rw [hrs]; simp [SelOK, h0, hm, h3, h4])
        have v3 : ValidGroups rs [[(0, none)], [(2, none)], [(5, none)]] :=
          valid_sels rs [(0, none), (2, none), (5, none)] (by simp) (by rw [hrs]; simp [SelOK, h0, hm, h5])
        have v4 : ValidGroups rs [[(5, none)], [(1, some (List.range' 1 bt.length))], [(2, none)], [(6, none)], [(4, none)]] :=
          valid_sels rs [(5, none), (1, some (List.range' 1 bt.length)), (2, none), (6, none), (4, none)] (by simp) (by
            rw [hrs]
            simp only [List.mem_cons, List.not_mem_nil, or_false, forall_eq_or_imp, forall_eq]
            refine ⟨by simp [SelOK, h5], ⟨by simp, by simpa using hbt, List.nodup_range', ?_⟩, by simp [SelOK, hm], by simp [SelOK, h6], by simp [SelOK, h4]⟩
            intro j hj
            have := List.mem_range'_1.mp hj
            show j < (b0 :: bt).length
            rw [List.length_cons]
            omega)
        have m1 := Quiet.copy (β := Conditioned β) (cs := [b0] :: cs) rp rv h3 (by omega) 0 (by omega)
        have m2 := Quiet.timesMod (β := Conditioned β) (cs := [b0] :: cs) ra rp rm re h3 hm ha he
        have m3 := Quiet.squareMod (β := β) (cs := cs) ra rm ru hm ha hu
        have m4 := ih ru bt rv re (by simp at hd; omega) hbt hu hv he
        have m5 := Quiet.squareModInv (β := β) (cs := cs) ra rm ru hm ha hu
        have m6 := Quiet.timesModInv (β := Conditioned β) (cs := [b0] :: cs) ra rp rm re h3 hm ha he
        have m7 := Quiet.copyInv (β := Conditioned β) (cs := [b0] :: cs) rp rv h3 (by omega)
        have k0 : Quiet cs _ _ _ _ := Quiet.lines_nil (β := β) (rs := rs)
        have k1 := Quiet.masked (m := 0) hn v1 g1 (as := [rp, rv]) (by simp only [List.map_cons, List.map_nil, g3, g6]) (by simp) m7 k0
        have k2 := Quiet.control hn v2 g1 (as := [ra, rp, rm, re]) (by simp only [List.map_cons, List.map_nil, g0, g3, g2, g4]) (by simp) m6 k1
        have k3 := Quiet.plain hn v3 (as := [ra, rm, ru]) (by simp only [List.map_cons, List.map_nil, g0, g2, g5]) m5 k2
        have k4 := Quiet.plain hn v4 (as := [ru, bt, rm, rv, re]) (by simp only [List.map_cons, List.map_nil, g5, g1', g2, g6, g4]) m4 k3
        have k5 := Quiet.plain hn v3 (as := [ra, rm, ru]) (by simp only [List.map_cons, List.map_nil, g0, g2, g5]) m3 k4
        have k6 := Quiet.control hn v2 g1 (as := [ra, rp, rm, re]) (by simp only [List.map_cons, List.map_nil, g0, g3, g2, g4]) (by simp) m2 k5
        have k7 := Quiet.masked (m := 0) hn v1 g1 (as := [rp, rv]) (by simp only [List.map_cons, List.map_nil, g3, g6]) (by simp) m1 k6
        exact k7.congr fun o ho => .inl ho
      refine QuietT.congr (QuietT.bind (t := rv ++ (ru ++ [])) (Q := [ra, rb, rm, rp, re].flatten) (T' := ∅) hpr ?_ ?_) fun o ho => ⟨ho, rv.getD 0 0, ?_, rfl⟩
      · simp only [List.flatten_cons, List.flatten_nil, List.append_nil]
        rw [List.perm_iff_count]
        intro q
        simp only [List.count_append]
        omega
      · exact QuietT.end2 h5 h6 (by simpa using List.perm_append_comm)
      · obtain ⟨t0, tt, rfl⟩ := List.exists_cons_of_ne_nil h6
        simp

theorem Quiet.expMod (ra rb rm rp re : Reg) (hb : rb ≠ []) (hm : rm ≠ []) (ha : ra.length = rm.length + 1)
    (hp : rp.length = rm.length + 1) (he : re.length = rm.length + 1) :
    Quiet cs (Arith.expMod [ra, rb, rm, rp, re] : M β _) [ra, rb, rm, rp, re] [ra, rb, rm, rp, re].flatten {none} :=
  Quiet.expModF _ ra rb rm rp re (by simp) hb hm ha hp he

theorem Quiet.expModInv (ra rb rm rp re : Reg) (hb : rb ≠ []) (hm : rm ≠ []) (ha : ra.length = rm.length + 1)
    (hp : rp.length = rm.length + 1) (he : re.length = rm.length + 1) :
    Quiet cs (Arith.expModInv [ra, rb, rm, rp, re] : M β _) [ra, rb, rm, rp, re] [ra, rb, rm, rp, re].flatten ∅ := by
  have hn0 := List.length_pos_iff.mpr hm
  have hk0 := List.length_pos_iff.mpr hb
  have h0 : ra ≠ [] := List.length_pos_iff.mp (by omega)
  have h1 : rp ≠ [] := List.length_pos_iff.mp (by omega)
  have h2 : re ≠ [] := List.length_pos_iff.mp (by omega)
  exact Quiet.inverse (rs := [ra, rb, rm, rp, re]) (by simp) (by simp [h0, h1, h2, hb, hm])
    (Quiet.expMod (β := LocalBuilder) (cs := []) (List.range' 0 ra.length) (List.range' (0 + ra.length) rb.length)
      (List.range' (0 + ra.length + rb.length) rm.length) (List.range' (0 + ra.length + rb.length + rm.length) rp.length)
      (List.range' (0 + ra.length + rb.length + rm.length + rp.length) re.length)
      (by simp; omega) (by simp; omega) (by simpa using ha) (by simpa using hp) (by simpa using he)) (.inl (by simp)) Adds.expMod

end

end Verif
