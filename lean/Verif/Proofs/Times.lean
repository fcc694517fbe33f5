import Verif.Proofs.QuietMod
import Verif.Proofs.CondAddInv2
import Verif.Proofs.Shift2

/-! # `times_mod` with one qubit `b` that is 0 -/

namespace Verif
open Classical Complex RegOps CircuitBuilder TempBuilder Rooted

/-! ## lines with their effect on chosen basis states -/

section
variable {ang : Rot → ℝ} {β : Type} [Conditionable β] [Rooted β] [Sim β] {cs : List Reg} {S S' : Set Asg} {rs : List Reg}

theorem Sure.lines_cons {l : Line β} {ls : List (Line β)} {Q : List ℕ} {U V : Asg → Wave} {T T' : Set (Option ℕ)} (hn : rs.flatten.Nodup)
    (hv : ValidGroups rs l.groups) (h : Sure ang cs S (l.call rs) (l.groups.map (groupReg rs)) Q U T) (hQ : Q = (l.groups.map (groupReg rs)).flatten)
    (hS : ∀ x ∈ S, On S' (U x)) (h' : Sure ang cs S' (ls.foldlM runLine (full rs)) (full rs) rs.flatten V T') :
    Sure ang cs S ((l :: ls).foldlM runLine (full rs)) (full rs) rs.flatten (fun x => lift V (U x)) (T ∪ T') := by
  rw [List.foldlM_cons]
  obtain ⟨g1, g2⟩ := groups_nodup rs hn _ hv
  have h2 := Sure.mono h (Q' := rs.flatten) (by rw [hQ]; exact g1) (by rw [hQ]; exact g2)
  exact Sure.bind (a := full rs) (fun s L hs ho => (h2 s L hs ho).line hn hv) hS h'

/-- a method that maps basis states, as the next line -/
theorem Sure.lines_map {f : List Reg → M β (List Reg)} {gs : List (List Sel)} {as : List Reg} {ls : List (Line β)} {V : Asg → Wave} {φ : Asg → Asg}
    {T : Set (Option ℕ)} (hn : rs.flatten.Nodup) (hv : ValidGroups rs gs) (hg : gs.map (groupReg rs) = as)
    (h : Maps ang [] (f as) as as.flatten φ) (hS : ∀ x ∈ S, φ x ∈ S')
    (h' : Sure ang [] S' (ls.foldlM runLine (full rs)) (full rs) rs.flatten V T) :
    Sure ang [] S ((.plain f gs :: ls).foldlM runLine (full rs)) (full rs) rs.flatten (fun x => V (φ x)) ∅ := by
  subst hg
  have h1 := (h.moves.sure.congr (S' := S) (U' := fun x => ket (φ x)) (fun x _ => ⟨trivial, by simp⟩) (T' := ∅) (by simp))
  exact (Sure.lines_cons (l := .plain f gs) hn hv h1 rfl (fun x hx => On.ket (hS x hx)) h').congr (fun x hx => ⟨hx, lift_ket _ _⟩) (by simp)

end

/-! ## the two programs -/

/-- before the addition of `m` inside the condition `t` -/
noncomputable def timesPre (ra rm : Reg) (t n : ℕ) (rc : Reg) (x : Asg) : Asg :=
  let y := subMap rc rm ra x
  if y (ra.getD n 0) = true then flipQ t y else y

/-- the first program if `b` is 0: the addition of `m` inside the condition `t`, then the shift -/
noncomputable def timesFwd (ra rm : Reg) (t n : ℕ) (rc : Reg) (x : Asg) : Wave :=
  lift (fun y => ket (rotate 1 ra y))
    (let y := timesPre ra rm t n rc x
     if y t = true then addW rc rm ra y else ket y)

/-- the second program -/
noncomputable def timesBwd (ra rm : Reg) (t n : ℕ) (rc : Reg) (x : Asg) : Wave :=
  lift (fun y => ket (addMap rc rm ra (if y (ra.getD n 0) = true then flipQ t y else y)))
    (let y := rotate (ra.length - 1) ra x
     if y t = true then subV rc rm ra y else ket y)

theorem Sure.timesFwd {ra rm rp : Reg} {b t n c0 : ℕ} {ct : Reg} (hm : rm.length = n) (ha : ra.length = n + 1) (hp : rp.length = n + 1)
    (hc : n = ct.length + 1) (hn : [ra, [b], rm, rp, [t], c0 :: ct].flatten.Nodup) :
    Sure rotAngle [] {x | x b = false} (Verif.program [ra, [b], rm, rp, [t], c0 :: ct]
        [.plain Arith.addInv [[(5, none)], [(2, none)], [(0, none)]],
         .control none (Verif.op1 Gate.x) [[(0, some [n])], [(4, some [0])]],
         .control none Arith.add [[(4, some [0])], [(5, none)], [(2, none)], [(0, none)]],
         .control none Arith.addMod [[(1, some [0])], [(0, some (List.range n))], [(3, none)], [(2, none)]],
         .plain Arith.rshift [[(0, none)]]] : M LocalBuilder _) [ra, [b], rm, rp, [t], c0 :: ct] [ra, [b], rm, rp, [t], c0 :: ct].flatten
      (Verif.timesFwd ra rm t n (c0 :: ct)) ∅ := by
  have ne : ∀ r : Reg, 0 < r.length → r ≠ [] := fun r h => List.length_pos_iff.mp h
  have hr0 := ne ra (by omega)
  have hr2 := ne rm (by omega)
  have hr3 := ne rp (by omega)
  have hba : b ∉ ra ∧ b ∉ c0 :: ct ∧ b ≠ t := by
    simp only [List.flatten_cons, List.flatten_nil, List.append_nil, List.nodup_append, List.nodup_cons, List.mem_cons, List.mem_append] at hn ⊢
    grind
  obtain ⟨b1, b2, b3⟩ := hba
  have hr : ∀ r ∈ [ra, [b], rm, rp, [t], c0 :: ct], r ≠ [] := by simp [hr0, hr2, hr3]
  obtain ⟨rs, hrs⟩ : ∃ rs, rs = [ra, [b], rm, rp, [t], c0 :: ct] := ⟨_, rfl⟩
  rw [← hrs] at hn hr ⊢
  have g0 : groupReg rs [(0, none)] = ra := by rw [groupReg_all, hrs]; rfl
  have g2 : groupReg rs [(2, none)] = rm := by rw [groupReg_all, hrs]; rfl
  have g3 : groupReg rs [(3, none)] = rp := by rw [groupReg_all, hrs]; rfl
  have g5 : groupReg rs [(5, none)] = c0 :: ct := by rw [groupReg_all, hrs]; rfl
  have gn : groupReg rs [(0, some [n])] = [ra.getD n 0] := by rw [groupReg_one, hrs]; rfl
  have gr : groupReg rs [(0, some (List.range n))] = ra.take n := by rw [groupReg_one, hrs]; exact at_range ra n (by omega)
  have gb : groupReg rs [(1, some [0])] = [b] := by rw [groupReg_one, hrs]; rfl
  have gt : groupReg rs [(4, some [0])] = [t] := by rw [groupReg_one, hrs]; rfl
  have v1 : ValidGroups rs [[(5, none)], [(2, none)], [(0, none)]] :=
    valid_sels rs [(5, none), (2, none), (0, none)] (by simp) (by rw [hrs]; simp [SelOK, hr0, hr2])
  have v2 : ValidGroups rs [[(0, some [n])], [(4, some [0])]] :=
    valid_sels rs [(0, some [n]), (4, some [0])] (by simp) (by rw [hrs]; simp [SelOK, ha])
  have v3 : ValidGroups rs [[(4, some [0])], [(5, none)], [(2, none)], [(0, none)]] :=
    valid_sels rs [(4, some [0]), (5, none), (2, none), (0, none)] (by simp) (by rw [hrs]; simp [SelOK, hr0, hr2])
  have v4 : ValidGroups rs [[(1, some [0])], [(0, some (List.range n))], [(3, none)], [(2, none)]] :=
    valid_sels rs [(1, some [0]), (0, some (List.range n)), (3, none), (2, none)] (by simp) (by
      rw [hrs]
      simp only [List.mem_cons, List.not_mem_nil, or_false, forall_eq_or_imp, forall_eq]
      refine ⟨by simp [SelOK], ⟨by simp, by simp; omega, List.nodup_range, ?_⟩, by simp [SelOK, hr3], by simp [SelOK, hr2]⟩
      intro j hj
      have := List.mem_range.mp hj
      show j < ra.length
      omega)
  have v5 : ValidGroups rs [[(0, none)]] := valid_sels rs [(0, none)] (by simp) (by rw [hrs]; simp [SelOK, hr0])
  have m1 : Maps rotAngle [] (Arith.addInv [c0 :: ct, rm, ra] : M LocalBuilder _) _ _ _ := Maps.addInv rotAngle_neg' c0 ct rm ra (by omega) (by omega)
  have m3 := Moves.add (β := Conditioned LocalBuilder) (cs := [[t]]) (by simp) c0 ct rm ra (by omega) (by omega)
  have m4 := Quiet.addMod (β := Conditioned LocalBuilder) (cs := [[b]]) (ra.take n) rp rm (ne _ (by simp; omega)) (by simp; omega) (by simp; omega)
  have m5 : Maps rotAngle [] (Arith.rshift [ra] : M LocalBuilder _) [ra] [ra].flatten (rotate 1 ra) := by
    simpa using Maps.rshift (β := LocalBuilder) (ang := rotAngle) [] ra hr0
  have h1 : Sure rotAngle [] {x | x b = false} _ _ _ _ _ := Sure.pure (β := LocalBuilder) (full rs) rs.flatten
  have h2 := Sure.lines_map (S := {x | x b = false}) (ls := []) hn v5 (as := [ra]) (by simp only [List.map_cons, List.map_nil, g0]) m5
    (fun x hx => by rw [Set.mem_setOf_eq, rotate_keeps _ _ _ _ b1]; exact hx) h1
  have h3 : Sure rotAngle [] {x | x b = false} _ _ _ _ _ := Sure.lines_cons (S' := {x | x b = false}) hn
    (l := .control none Arith.addMod [[(1, some [0])], [(0, some (List.range n))], [(3, none)], [(2, none)]]) v4 (Q := [b] ++ [ra.take n, rp, rm].flatten)
    (U := ket) (T := {none}) (by
      have k1 : Sure rotAngle [] {x | x b = false} (Conditioned.conditioned [b] (Arith.addMod [ra.take n, rp, rm]) : M LocalBuilder _) _ _ ket {none} :=
        (Sure.conditioned (by simp) m4).congr (fun x hx => ⟨by simpa [Idle] using hx, rfl⟩) (fun _ h => h)
      have k2 := Sure.bind k1 (f := fun p : List Reg × Reg => Pure.pure (p.2 :: p.1)) (S' := {x | x b = false}) (fun x hx => On.ket hx) (Sure.pure _ _)
      refine Sure.cast (k2.congr (fun x hx => ⟨hx, lift_ket_ket x⟩) fun _ h => .inl h) ?_ (by simp [Line.groups, gb, gr, g3, g2]) rfl
      unfold Line.call
      simp only [List.map_cons, List.map_nil, gb, gr, g3, g2, pure_bind]) (by simp [Line.groups, gb, gr, g3, g2])
    (fun x hx => On.ket hx) h2
  have h4 : Sure rotAngle [] {x | x b = false} _ _ _ _ _ := Sure.lines_cons (S := {x | x b = false}) hn (l := .control none Arith.add [[(4, some [0])], [(5, none)], [(2, none)], [(0, none)]]) v3
    ((Moves.control gt (as := [c0 :: ct, rm, ra]) (by simp only [List.map_cons, List.map_nil, g0, g2, g5]) (by simp) m3).sure.congr
      (fun x _ => ⟨trivial, rfl⟩) (T' := ∅) (by simp)) rfl (fun x hx => by
        have hx' : x b = false := hx
        simp only [List.flatten_nil, List.not_mem_nil, false_implies, implies_true, if_true]
        split
        · exact (addW_keeps (c0 :: ct) rm ra x).mono fun y hy => by
            rw [Set.mem_setOf_eq, hy b (fun h => b2 (List.mem_cons_of_mem _ h)) b1]; exact hx
        · exact On.ket hx) h3
  have h5 : Sure rotAngle [] {x | x b = false} _ _ _ _ _ := Sure.lines_cons (S := {x | x b = false}) hn (l := .control none (Verif.op1 Gate.x) [[(0, some [n])], [(4, some [0])]]) v2
    ((Maps.control_x (β := LocalBuilder) (by rw [gn]; simp) gt).moves.sure.congr (fun x _ => ⟨trivial, rfl⟩) (T' := ∅) (by simp)) rfl (fun x hx => by
        simp only [List.flatten_nil, List.not_mem_nil, false_implies, implies_true, if_true]
        refine On.ket ?_
        have hx' : x b = false := hx
        split
        · rw [Set.mem_setOf_eq, flipQ_of_ne t b b3]; exact hx
        · exact hx) h4
  have h6 := Sure.lines_map (S := {x | x b = false}) hn v1 (as := [c0 :: ct, rm, ra]) (by simp only [List.map_cons, List.map_nil, g5, g2, g0]) m1
    (fun x hx => by
      rw [Set.mem_setOf_eq, subMap_keeps _ _ _ x b (fun h => b2 (by simpa using Or.inr h)) b1]; exact hx) h5
  have h7 : Sure rotAngle [] {x | x b = false} (Verif.program rs _ : M LocalBuilder _) rs rs.flatten _ _ :=
    fun s L hs ho => DoesOn.program hr hn (h6 s L hs ho)
  refine h7.congr (fun x hx => ⟨hx, ?_⟩) (by simp)
  simp only [List.flatten_nil, List.not_mem_nil, false_implies, implies_true, if_true, gn, lift_ket, List.mem_singleton, forall_eq]
  rfl

theorem Moves.timesBwd {ra rm : Reg} {t n c0 : ℕ} {ct : Reg} (hm : rm.length = n) (ha : ra.length = n + 1)
    (hc : n = ct.length + 1) (hn : [ra, rm, [t], c0 :: ct].flatten.Nodup) :
    Moves rotAngle [] (Verif.program [ra, rm, [t], c0 :: ct]
            [.plain Arith.lshift [[(0, none)]],
             .control none Arith.addInv [[(2, some [0])], [(3, none)], [(1, none)], [(0, none)]],
             .control none (Verif.op1 Gate.x) [[(0, some [n])], [(2, some [0])]],
             .plain Arith.add [[(3, none)], [(1, none)], [(0, none)]]] : M LocalBuilder _) [ra, rm, [t], c0 :: ct] [ra, rm, [t], c0 :: ct].flatten
      (Verif.timesBwd ra rm t n (c0 :: ct)) := by
  have ne : ∀ r : Reg, 0 < r.length → r ≠ [] := fun r h => List.length_pos_iff.mp h
  have hr0 := ne ra (by omega)
  have hr1 := ne rm (by omega)
  have hr : ∀ r ∈ [ra, rm, [t], c0 :: ct], r ≠ [] := by simp [hr0, hr1]
  obtain ⟨rs, hrs⟩ : ∃ rs, rs = [ra, rm, [t], c0 :: ct] := ⟨_, rfl⟩
  rw [← hrs] at hn hr ⊢
  have g0 : groupReg rs [(0, none)] = ra := by rw [groupReg_all, hrs]; rfl
  have g1 : groupReg rs [(1, none)] = rm := by rw [groupReg_all, hrs]; rfl
  have g3 : groupReg rs [(3, none)] = c0 :: ct := by rw [groupReg_all, hrs]; rfl
  have gn : groupReg rs [(0, some [n])] = [ra.getD n 0] := by rw [groupReg_one, hrs]; rfl
  have gt : groupReg rs [(2, some [0])] = [t] := by rw [groupReg_one, hrs]; rfl
  have v1 : ValidGroups rs [[(0, none)]] := valid_sels rs [(0, none)] (by simp) (by rw [hrs]; simp [SelOK, hr0])
  have v2 : ValidGroups rs [[(2, some [0])], [(3, none)], [(1, none)], [(0, none)]] :=
    valid_sels rs [(2, some [0]), (3, none), (1, none), (0, none)] (by simp) (by rw [hrs]; simp [SelOK, hr0, hr1])
  have v3 : ValidGroups rs [[(0, some [n])], [(2, some [0])]] :=
    valid_sels rs [(0, some [n]), (2, some [0])] (by simp) (by rw [hrs]; simp [SelOK, ha])
  have v4 : ValidGroups rs [[(3, none)], [(1, none)], [(0, none)]] :=
    valid_sels rs [(3, none), (1, none), (0, none)] (by simp) (by rw [hrs]; simp [SelOK, hr0, hr1])
  have m1 : Maps rotAngle [] (Arith.lshift [ra] : M LocalBuilder _) [ra] [ra].flatten (rotate (ra.length - 1) ra) := by
    simpa using Maps.lshift rotAngle_neg' ra (by omega)
  have m2 := Moves.addInv (β := Conditioned LocalBuilder) (cs := [[t]]) (by simp) c0 ct rm ra (by omega) (by omega)
  have m4 : Maps rotAngle [] (Arith.add [c0 :: ct, rm, ra] : M LocalBuilder _) _ _ _ := Maps.add rotAngle_neg' c0 ct rm ra (by omega) (by omega)
  have h1 : Moves rotAngle [] _ _ _ _ := Moves.lines_nil (β := LocalBuilder) (rs := rs)
  have h2 := Moves.lines_map hn v4 (as := [c0 :: ct, rm, ra]) (by simp only [List.map_cons, List.map_nil, g3, g1, g0]) m4 h1
  have h3 := Moves.lines_cons hn (l := .control none (Verif.op1 Gate.x) [[(0, some [n])], [(2, some [0])]]) v3
    (Maps.control_x (by rw [gn]; simp) gt).moves rfl h2
  have h4 := Moves.lines_cons hn (l := .control none Arith.addInv [[(2, some [0])], [(3, none)], [(1, none)], [(0, none)]]) v2
    (Moves.control gt (as := [c0 :: ct, rm, ra]) (by simp only [List.map_cons, List.map_nil, g0, g1, g3]) (by simp) m2) rfl h3
  have h5 := Moves.lines_map hn v1 (as := [ra]) (by simp only [List.map_cons, List.map_nil, g0]) m1 h4
  refine (Moves.program_nodup hr hn h5).congr fun x => ?_
  simp only [gn, List.mem_singleton, forall_eq, lift_ket]
  rfl

/-! ## the whole -/

theorem timesMod_run {s : LocalBuilder} {ra rm rp : Reg} {b : ℕ} {L : List ℕ} (hm : rm ≠ []) (ha : ra.length = rm.length + 1) (hp : rp.length = rm.length + 1)
    (ho : Own s ([ra, [b], rm, rp].flatten ++ L)) :
    ∃ s' seg t c0 ct, Arith.timesMod [ra, [b], rm, rp] s = .ok [ra, [b], rm, rp] s' ∧ s'.pipeline = s.pipeline ++ seg ∧
      rm.length = ct.length + 1 ∧ [ra, [b], rm, rp, [t], c0 :: ct].flatten.Nodup ∧ Own s' ([ra, [b], rm, rp].flatten ++ L) ∧
      ∀ x, Clean s x → x b = false → (∀ q ∈ t :: c0 :: ct, x q = false) ∧
        runW rotAngle seg (ket x) = lift (timesBwd ra rm t rm.length (c0 :: ct)) (timesFwd ra rm t rm.length (c0 :: ct) x) := by
  have hpos := List.length_pos_iff.mpr hm
  obtain ⟨rt, s1, a1, a2, -, a3, a4, -, -, -, a7⟩ := makeTempRegister_sim (β := LocalBuilder) (n := 1) (by omega) ho
  obtain ⟨rc, s2, b1, b2, -, b3, b4, -, -, -, b7⟩ := makeTempRegister_sim (β := LocalBuilder) (n := rm.length) hpos a3
  obtain ⟨t, rfl⟩ := List.length_eq_one_iff.mp a2
  obtain ⟨c0, ct, rfl⟩ := List.exists_cons_of_length_pos (l := rc) (by omega)
  have b2' : rm.length = ct.length + 1 := by simpa using b2.symm
  have hp1 : ((c0 :: ct) ++ ([t] ++ ([ra, [b], rm, rp].flatten ++ L))).Perm ([] ++ [ra, [b], rm, rp, [t], c0 :: ct].flatten ++ L) := by
    simp only [List.flatten_cons, List.flatten_nil, List.append_nil, List.nil_append]
    rw [List.perm_iff_count]
    intro q
    simp only [List.count_append, List.count_cons, List.count_nil]
    omega
  have o2 := b3.perm hp1
  have hn : [ra, [b], rm, rp, [t], c0 :: ct].flatten.Nodup := by
    have := (List.nodup_append.mp o2.left).1
    rwa [List.nil_append] at this
  obtain ⟨s3, c1, -, c2, -, -, seg1, c3, c4, -, c5⟩ := Sure.timesFwd rfl ha hp b2' hn s2 L rfl o2
  have hp2 : ([] ++ [ra, [b], rm, rp, [t], c0 :: ct].flatten ++ L).Perm ([] ++ [ra, rm, [t], c0 :: ct].flatten ++ ([b] ++ rp ++ L)) := by
    simp only [List.flatten_cons, List.flatten_nil, List.append_nil, List.nil_append]
    rw [List.perm_iff_count]
    intro q
    simp only [List.count_append, List.count_cons, List.count_nil]
    omega
  have o3 := c2.perm hp2
  have hn3 : [ra, rm, [t], c0 :: ct].flatten.Nodup := by
    have := (List.nodup_append.mp o3.left).1
    rwa [List.nil_append] at this
  obtain ⟨s4, d1, -, d2, -, -, seg2, d3, -, -, d5⟩ := (Moves.timesBwd rfl ha b2' hn3).sure s3 _ rfl o3
  have hp3 : ([] ++ [ra, rm, [t], c0 :: ct].flatten ++ ([b] ++ rp ++ L)).Perm ((c0 :: ct) ++ ([t] ++ ([ra, [b], rm, rp].flatten ++ L))) := by
    simp only [List.flatten_cons, List.flatten_nil, List.append_nil, List.nil_append]
    rw [List.perm_iff_count]
    intro q
    simp only [List.count_append, List.count_cons, List.count_nil]
    omega
  obtain ⟨s5, e1, e2, e3, -⟩ := returnTempR_local (c0 :: ct) (by simp) (d2.perm hp3)
  obtain ⟨s6, f1, f2, f3, -⟩ := returnTempR_local [t] (by simp) e2
  have a4' : s1.pipeline = s.pipeline := a4
  have b4' : s2.pipeline = s1.pipeline := b4
  have c3' : s3.pipeline = s2.pipeline ++ seg1 := c3
  have d3' : s4.pipeline = s3.pipeline ++ seg2 := d3
  have e3' : s5.pipeline = s4.pipeline := e3
  refine ⟨s6, seg1 ++ seg2, t, c0, ct, ?_, by rw [f3, e3', d3', c3', b4', a4', List.append_assoc], b2', hn, f2, fun x hx hb => ?_⟩
  · have e1' : (returnTemp (c0 :: ct) : M LocalBuilder Unit) s4 = .ok () s5 := e1
    have f1' : (returnTemp [t] : M LocalBuilder Unit) s5 = .ok () s6 := f1
    rw [Arith.timesMod, if_neg (by omega), if_neg (by omega), List.length_singleton, bind_ok a1, bind_ok b1]
    simp only [show List.range 1 = [0] from rfl, List.reverse_cons, List.reverse_nil, List.nil_append, List.foldlM_cons, List.foldlM_nil, bind_pure]
    refine (bind_ok c1).trans ?_
    simp only [bind_assoc]
    refine (bind_ok d1).trans ?_
    simp only [pure_bind]
    rw [bind_ok e1', bind_ok f1']
    rfl
  · obtain ⟨g1, g2⟩ := a7 x hx
    obtain ⟨g3, g4⟩ := b7 x g1
    obtain ⟨k1, k2⟩ := c5 x hb g3
    refine ⟨fun q hq => ?_, ?_⟩
    · rcases List.mem_cons.mp hq with rfl | hq
      · exact g2 q (by simp)
      · exact g4 q hq
    · rw [runW_append, k1]
      refine k2.agree fun y hy => ?_
      rw [(d5 y trivial hy).1, lift_ket]
      simp

/-! ## never right -/

theorem noCarry_congr (ct : Reg) (c0 : ℕ) (a b : Reg) (ha : a.length = ct.length + 1) (hb : b.length = ct.length + 2) (x y : Asg)
    (h : ∀ q ∈ c0 :: ct ++ a ++ b, x q = y q) : NoCarry (c0 :: ct) a b x ↔ NoCarry (c0 :: ct) a b y := by
  refine add_induct (P := fun c a b => (∀ q ∈ c ++ a ++ b, x q = y q) → (NoCarry c a b x ↔ NoCarry c a b y)) ?_ ?_ ct c0 a b ha hb h
  · intro c a b b' h
    show maj _ _ _ = false ↔ maj _ _ _ = false
    rw [h c (by simp), h a (by simp), h b (by simp)]
  · intro c c' cs a as b bs ih h
    rw [noCarry_cons, noCarry_cons, h c (by simp), h a (by simp), h b (by simp), ih fun q hq => h q (by
      simp only [List.mem_append, List.mem_cons] at hq ⊢
      tauto)]

theorem valQ_le_of_bits (a b : Reg) (hl : a.length ≤ b.length) (x : Asg) (h : ∀ i < a.length, x (a.getD i 0) = true → x (b.getD i 0) = true) :
    valQ a x ≤ valQ b x := by
  have e : valQ a x &&& valQ b x = valQ a x := by
    refine Nat.eq_of_testBit_eq fun i => ?_
    rw [Nat.testBit_and, testBit_valQ, testBit_valQ]
    by_cases hi : i < a.length
    · have := h i hi
      rw [List.getD_eq_getElem _ _ hi, List.getD_eq_getElem _ _ (by omega)] at this
      rw [dif_pos hi, dif_pos (by omega)]
      cases hx : x a[i] <;> simp_all
    · rw [dif_neg hi]; simp
  rw [← e]
  exact Nat.and_le_right

theorem lift_lift_eq (U V : Asg → Wave) (ψ : Wave) : lift U (lift V ψ) = lift (fun x => lift U (V x)) ψ := by
  have : lift U ∘ₗ lift V = lift (fun x => lift U (V x)) := wave_ext fun x => by rw [LinearMap.comp_apply, lift_ket, lift_ket]
  exact LinearMap.congr_fun this ψ

/-- if `b` is 0, the circuit never leaves a state with `a < m` as it is -/
theorem times_wrong {ra rm : Reg} {t n c0 : ℕ} {ct : Reg} (hm : rm.length = n) (ha : ra.length = n + 1) (hc : n = ct.length + 1)
    (hn : [ra, rm, [t], c0 :: ct].flatten.Nodup) (x : Asg) (hx : ∀ q ∈ t :: c0 :: ct, x q = false) (h1 : valQ ra x < valQ rm x) :
    lift (timesBwd ra rm t n (c0 :: ct)) (timesFwd ra rm t n (c0 :: ct) x) ≠ ket x := by
  intro h
  simp only [List.flatten_cons, List.flatten_nil, List.append_nil] at hn
  have na : ((c0 :: ct) ++ rm ++ ra).Nodup := by
    simp only [List.nodup_append, List.nodup_cons, List.mem_cons, List.mem_append] at hn ⊢
    grind
  have ht : t ∉ ra ∧ t ∉ rm ∧ t ∉ c0 :: ct ∧ ra.Nodup := by
    simp only [List.nodup_append, List.nodup_cons, List.mem_cons, List.mem_append] at hn ⊢
    grind
  obtain ⟨t1, t2, t3, nra⟩ := ht
  have hca : ∀ q ∈ c0 :: ct, x q = false := fun q hq => hx q (List.mem_cons_of_mem _ hq)
  have hla : rm.length = ct.length + 1 := by omega
  have hlb : ra.length = ct.length + 2 := by omega
  have htop : ra.getD n 0 ∈ ra := by rw [List.getD_eq_getElem _ _ (by omega)]; exact List.getElem_mem _
  have hne : ra.getD n 0 ≠ t := fun e => t1 (e ▸ htop)
  -- the conditional flip
  obtain ⟨fl, hfl⟩ : ∃ fl : Asg → Asg, fl = fun y => if y (ra.getD n 0) = true then flipQ t y else y := ⟨_, rfl⟩
  have flfl : ∀ y, fl (fl y) = y := by
    intro y
    rw [hfl]
    by_cases hy : y (ra.getD n 0) = true
    · simp only [hy, if_true, flipQ_of_ne t _ hne, flipQ_flipQ]
    · simp only [if_neg hy]
  obtain ⟨z, hz⟩ : ∃ z, z = timesPre ra rm t n (c0 :: ct) x := ⟨_, rfl⟩
  have hz' : z = fl (subMap (c0 :: ct) rm ra x) := by rw [hz, hfl]; rfl
  have hbit : subMap (c0 :: ct) rm ra x (ra.getD n 0) = true := by
    obtain ⟨v, -⟩ := sub_value c0 ct rm ra na hla hlb x (fun q hq => hca q (by simp [hq]))
    rw [hca c0 (by simp)] at v
    have e1 := valQ_lt ra (subMap (c0 :: ct) rm ra x)
    have e2 := valQ_lt rm x
    have e3 := valQ_lt ra x
    have hP : (2 : ℤ) ^ ra.length = 2 * 2 ^ n := by rw [ha, pow_succ, mul_comm]
    have hp : (2 : ℕ) ^ ra.length = 2 * 2 ^ n := by rw [ha, pow_succ, mul_comm]
    have hpz : ((2 : ℤ) ^ n) = ((2 ^ n : ℕ) : ℤ) := by push_cast; rfl
    rw [hP, hpz] at v
    rw [hp] at e1 e3
    rw [hm] at e2
    rw [top_bit ra n ha (subMap (c0 :: ct) rm ra x), decide_eq_true_eq]
    have : ((valQ ra x : ℤ) - valQ rm x) % (2 * (2 ^ n : ℕ)) = 2 * (2 ^ n : ℕ) + valQ ra x - valQ rm x := by
      rw [← Int.add_emod_right, Int.emod_eq_of_lt (by omega) (by omega)]
      omega
    simp only [Bool.toNat_false, Nat.cast_zero, sub_zero] at v
    rw [this] at v
    omega
  have hzt : z t = true := by
    rw [hz', hfl]
    simp only [hbit, if_true]
    rw [flipQ_self, subMap_keeps _ _ _ _ _ (fun h => t3 (by simpa using Or.inr h)) t1, hx t (by simp)]
    rfl
  have hzq : ∀ q ∈ c0 :: ct ++ rm ++ ra, z q = subMap (c0 :: ct) rm ra x q := by
    intro q hq
    have hqt : q ≠ t := by
      rintro rfl
      simp only [List.mem_append] at hq
      tauto
    rw [hz', hfl]
    simp only [hbit, if_true]
    exact flipQ_of_ne t q hqt _
  -- undo the outer lines
  have hF : timesFwd ra rm t n (c0 :: ct) x = lift (fun y => ket (rotate 1 ra y)) (addW (c0 :: ct) rm ra z) := by
    unfold timesFwd
    simp only [← hz, hzt, if_true]
  have hB : timesBwd ra rm t n (c0 :: ct) = fun y => lift (fun y => ket (addMap (c0 :: ct) rm ra (fl y)))
      (lift (fun y => if y t = true then subV (c0 :: ct) rm ra y else ket y) (ket (rotate (ra.length - 1) ra y))) := by
    funext y
    rw [lift_ket, hfl]
    rfl
  rw [hF, hB, lift_lift_eq] at h
  simp only [lift_ket, (rotate_rotate ra nra (by omega) _).2] at h
  rw [← lift_lift_eq] at h
  have h2 := lift_inj_ket (f := fun y => addMap (c0 :: ct) rm ra (fl y)) (g := fun y => fl (subMap (c0 :: ct) rm ra y))
    (fun y => by simp only [sub_add _ _ _ na, flfl]) h
  rw [← hz'] at h2
  have h3 : lift (subV (c0 :: ct) rm ra) (addW (c0 :: ct) rm ra z) = ket z := by
    rw [← h2]
    have hon : On {y | y t = true} (addW (c0 :: ct) rm ra z) := (addW_keeps (c0 :: ct) rm ra z).mono fun y hy => by
      rw [Set.mem_setOf_eq, hy t (fun h => t3 (List.mem_cons_of_mem _ h)) t1, hzt]
    refine hon.agree fun y hy => ?_
    have hy' : y t = true := hy
    rw [lift_ket, lift_ket, if_pos hy']
  have h4 := congrArg (lift (addV (c0 :: ct) rm ra)) h3
  rw [lift_lift_id (addV_subV ct c0 rm ra hla hlb na), lift_ket] at h4
  have h5 := addW_addV ct c0 rm ra hla hlb na z h4
  rw [noCarry_congr ct c0 rm ra hla hlb _ _ hzq, sub_noCarry ct c0 rm ra hla hlb na x hca] at h5
  have := valQ_le_of_bits rm ra (by omega) x h5
  omega

end Verif
