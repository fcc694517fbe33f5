import Verif.Proofs.Uses4

/-! # Counting elements and qubits: the modular circuits -/

namespace Verif
open Classical RegOps CircuitBuilder TempBuilder Rooted

/-! ## temporaries -/

section
variable {β α γ : Type} [Conditionable β] [Rooted β] [Sim β] {cs : List Reg}

/-- like `Takes`, for the rest of a method that holds temporaries `t` and gives them back -/
def TakesT (cs : List Reg) (m : M β α) (a : α) (t Q : List ℕ) (P : Profile) (lo hi : ℕ) : Prop :=
  ∀ (s : β) (L : List ℕ), ctl s = some cs → Own (root s) (t ++ (cs.flatten ++ Q ++ L)) → Uses m s a (cs.flatten ++ Q ++ L) P t.length lo hi

namespace TakesT

theorem takes {m : M β α} {a : α} {Q : List ℕ} {P : Profile} {lo hi : ℕ} (h : TakesT cs m a [] Q P lo hi) : Takes cs m a Q P lo hi :=
  fun s L hs ho => h s L hs (by simpa using ho)

theorem pure (a : α) (Q : List ℕ) : TakesT cs (Pure.pure a : M β α) a [] Q 0 0 0 := fun _ _ _ ho => Uses.pure (by simpa using ho) a

theorem congr {m : M β α} {a : α} {t Q : List ℕ} {P P' : Profile} {lo hi lo' hi' : ℕ} (h : TakesT cs m a t Q P lo hi) (hP : P = P') (h1 : lo' ≤ lo) (h2 : hi ≤ hi') :
    TakesT cs m a t Q P' lo' hi' := fun s L hs ho => (h s L hs ho).congr (List.Perm.refl _) hP h1 h2

theorem temp {n : ℕ} (hn : 0 < n) {f : Reg → M β γ} {c : γ} {t Q : List ℕ} {P : Profile} {lo hi : ℕ}
    (h : ∀ t', t'.length = n → TakesT cs (f t') c (t' ++ t) Q P lo hi) : TakesT cs (makeTempRegister n >>= f) c t Q P (lo + n) (hi + n) := by
  intro s L hs ho
  refine Uses.temp hn ho fun t' s' ht' hs' ho' => ?_
  have h1 := h t' ht' s' L (hs'.trans hs) (by rw [List.append_assoc]; exact ho')
  rwa [List.length_append, ht', add_comm] at h1

theorem temp1 {f : Reg → M β γ} {c : γ} {t Q : List ℕ} {P : Profile} {lo hi : ℕ}
    (h : ∀ q, TakesT cs (f [q]) c ([q] ++ t) Q P lo hi) : TakesT cs (makeTempQubit >>= f) c t Q P (lo + 1) (hi + 1) := by
  intro s L hs ho
  refine Uses.temp1 ho fun q s' hs' ho' => ?_
  exact h q s' L (hs'.trans hs) (by rw [List.append_assoc]; exact ho')

theorem bind {m : M β α} {f : α → M β γ} {a : α} {c : γ} {t Q Q' : List ℕ} {P P' : Profile} {lo hi lo' hi' : ℕ} (h : Takes cs m a Q' P lo hi) (hQ : Q'.Perm (Q ++ t))
    (h' : TakesT cs (f a) c t Q P' lo' hi') : TakesT cs (m >>= f) c t Q (P + P') (max lo lo') (max hi hi') := by
  intro s L hs ho
  have hp : (t ++ (cs.flatten ++ Q ++ L)).Perm (cs.flatten ++ Q' ++ L) := by
    rw [List.perm_iff_count]
    intro q
    have := hQ.count_eq q
    simp only [List.count_append] at this ⊢
    omega
  refine Uses.bind (h s L hs (ho.perm hp)) fun s' hs' ho' => ?_
  exact h' s' L (hs'.trans hs) (ho'.perm hp.symm)

theorem give {f : Unit → M β γ} {c : γ} {t t1 t2 Q : List ℕ} {P : Profile} {hi : ℕ} (ht : t1 ≠ []) (hp : t.Perm (t1 ++ t2))
    (h : TakesT cs (f ()) c t2 Q P 0 hi) : TakesT cs (returnTemp t1 >>= f) c t Q P 0 hi := by
  intro s L hs ho
  have hp' : (t ++ (cs.flatten ++ Q ++ L)).Perm (t1 ++ (t2 ++ (cs.flatten ++ Q ++ L))) := by
    rw [← List.append_assoc t1]
    exact hp.append_right _
  rw [hp.length_eq, List.length_append, add_comm]
  exact Uses.give ht (ho.perm hp') fun s' hs' ho' => h s' L (hs'.trans hs) ho'

theorem end1 {c : γ} {t t1 Q : List ℕ} (ht : t1 ≠ []) (hp : t.Perm t1) :
    TakesT cs (do
      returnTemp t1
      Pure.pure c : M β γ) c t Q 0 0 0 :=
  give (f := fun _ => Pure.pure c) (t2 := []) ht (by rwa [List.append_nil]) (pure c Q)

theorem end2 {c : γ} {t t1 t2 Q : List ℕ} (h1 : t1 ≠ []) (h2 : t2 ≠ []) (hp : t.Perm (t1 ++ t2)) :
    TakesT cs (do
      returnTemp t1
      returnTemp t2
      Pure.pure c : M β γ) c t Q 0 0 0 :=
  give (f := fun _ => do
      returnTemp t2
      Pure.pure c) (t2 := t2) h1 hp (end1 h2 (List.Perm.refl _))

end TakesT

end

section
variable {β : Type} [Recursive β] [Rooted β] [SubSim β] {cs : List Reg} {c n k : ℕ}

/-! ## add_mod -/

theorem Takes.addMod (hcs : cs.flatten.length = c) (ra rb rm : Reg) (h0 : ra ≠ []) (hm : rm.length = ra.length) (hb : rb.length = ra.length + 1) :
    Takes cs (Arith.addMod [ra, rb, rm] : M β _) [ra, rb, rm] [ra, rb, rm].flatten (Count.addMod ra.length c) (ra.length + c + 2) (ra.length + c + 2) := by
  have hpos := List.length_pos_iff.mpr h0
  refine TakesT.takes ?_
  rw [Arith.addMod, if_neg (by omega), if_neg (by omega)]
  refine TakesT.congr (TakesT.temp1 (lo := c + 1 + ra.length) (hi := c + 1 + ra.length) fun t => TakesT.temp (lo := c + 1) (hi := c + 1) (P := Count.addMod ra.length c) hpos fun rc hc => ?_)
    rfl (by omega) (by omega)
  have hr : ∀ r ∈ [ra, rb, rm, [t], rc], r ≠ [] := by
    intro r hr
    simp only [List.mem_cons, List.not_mem_nil, or_false] at hr
    rcases hr with rfl | rfl | rfl | rfl | rfl
    · exact h0
    · rintro rfl; simp at hb
    · rintro rfl; simp at hm; omega
    · simp
    · rintro rfl; simp at hc; omega
  have hp : Takes cs (Verif.program [ra, rb, rm, [t], rc]
        [.plain Arith.add [[(4, none)], [(0, none)], [(1, none)]],
         .plain Arith.addInv [[(4, none)], [(2, none)], [(1, none)]],
         .control none (Verif.op1 Gate.x) [[(1, some [ra.length])], [(3, none)]],
         .control none Arith.add [[(3, none)], [(4, none)], [(2, none)], [(1, none)]],
         .plain Arith.addInv [[(4, none)], [(0, none)], [(1, none)]],
         .control (some 0) (Verif.op1 Gate.x) [[(1, some [ra.length])], [(3, none)]],
         .plain Arith.add [[(4, none)], [(0, none)], [(1, none)]]] : M β _) [ra, rb, rm, [t], rc] [ra, rb, rm, [t], rc].flatten (Count.addMod ra.length c) (c + 1) (c + 1) := by
    refine Takes.program hr fun hn => ?_
    have hr0 := hr ra (by simp)
    have hr1 := hr rb (by simp)
    have hr2 := hr rm (by simp)
    have hr4 := hr rc (by simp)
    obtain ⟨n, hN⟩ : ∃ n, n = ra.length := ⟨_, rfl⟩
    rw [← hN]
    rw [← hN] at hm hb hc
    have ha := hN.symm
    obtain ⟨rs, hrs⟩ : ∃ rs, rs = [ra, rb, rm, [t], rc] := ⟨_, rfl⟩
    rw [← hrs] at hn ⊢
    have g0 : groupReg rs [(0, none)] = ra := by rw [groupReg_all, hrs]; rfl
    have g1 : groupReg rs [(1, none)] = rb := by rw [groupReg_all, hrs]; rfl
    have g2 : groupReg rs [(2, none)] = rm := by rw [groupReg_all, hrs]; rfl
    have g3 : groupReg rs [(3, none)] = [t] := by rw [groupReg_all, hrs]; rfl
    have g4 : groupReg rs [(4, none)] = rc := by rw [groupReg_all, hrs]; rfl
    have gn : groupReg rs [(1, some [n])] = [rb.getD n 0] := by rw [groupReg_one, hrs]; rfl
    have va : ValidGroups rs [[(4, none)], [(0, none)], [(1, none)]] :=
      valid_sels rs [(4, none), (0, none), (1, none)] (by simp) (by rw [hrs]; simp [SelOK, hr0, hr1, hr4])
    have vm : ValidGroups rs [[(4, none)], [(2, none)], [(1, none)]] :=
      valid_sels rs [(4, none), (2, none), (1, none)] (by simp) (by rw [hrs]; simp [SelOK, hr2, hr1, hr4])
    have vc : ValidGroups rs [[(3, none)], [(4, none)], [(2, none)], [(1, none)]] :=
      valid_sels rs [(3, none), (4, none), (2, none), (1, none)] (by simp) (by rw [hrs]; simp [SelOK, hr2, hr1, hr4])
    have vx : ValidGroups rs [[(1, some [n])], [(3, none)]] :=
      valid_sels rs [(1, some [n]), (3, none)] (by simp) (by rw [hrs]; simp [SelOK, hb])
    have mA := Takes.add (β := β) hcs rc ra rb hc (by omega) ha hb
    have mS := Takes.addInv (β := β) hcs rc ra rb hc (by omega) ha hb
    have mM := Takes.addInv (β := β) hcs rc rm rb hc (by omega) hm hb
    have mC := Takes.add (β := Conditioned β) (flat1 hcs t) rc rm rb hc (by omega) hm hb
    have mX := Takes.op1x (β := Conditioned β) (flat1 hcs (rb.getD n 0)) t
    have h1 : Takes cs _ _ _ _ _ _ := Takes.lines_nil (β := β) (rs := rs)
    have h2 := Takes.plain hn va (as := [rc, ra, rb]) (by simp only [List.map_cons, List.map_nil, g0, g1, g4]) mA h1
    have h3 := Takes.masked hn vx gn (as := [[t]]) (by simp only [List.map_cons, List.map_nil, g3]) mX h2
    have h4 := Takes.plain hn va (as := [rc, ra, rb]) (by simp only [List.map_cons, List.map_nil, g0, g1, g4]) mS h3
    have h5 := Takes.control hn vc g3 (as := [rc, rm, rb]) (by simp only [List.map_cons, List.map_nil, g1, g2, g4]) (by simp) mC h4
    have h6 := Takes.control hn vx gn (as := [[t]]) (by simp only [List.map_cons, List.map_nil, g3]) (by simp) mX h5
    have h7 := Takes.plain hn vm (as := [rc, rm, rb]) (by simp only [List.map_cons, List.map_nil, g1, g2, g4]) mM h6
    have h8 := Takes.plain hn va (as := [rc, ra, rb]) (by simp only [List.map_cons, List.map_nil, g0, g1, g4]) mA h7
    rw [hcs] at h8
    refine h8.congr ?_ (by omega) (by omega)
    unfold Count.addMod
    generalize Count.add n c = x1
    generalize Count.inv (Count.add n 0) c = x2
    generalize Count.add n (c + 1) = x3
    generalize tofP (c + 1) = x4
    generalize tofP c = x5
    simp only [two_smul, add_zero]
    abel
  have hfin := TakesT.bind (t := rc ++ ([t] ++ [])) (Q := [ra, rb, rm].flatten) (c := [ra, rb, rm]) (f := fun rs => (match rs with
      | [ra, rb, rm, rt, rc] => do
        returnTemp rt
        returnTemp rc
        Pure.pure [ra, rb, rm]
      | _ => throw .panic : M β _)) hp (by
        simp only [List.flatten_cons, List.flatten_nil, List.append_nil]
        rw [List.perm_iff_count]
        intro q
        simp only [List.count_append, List.count_cons, List.count_nil]
        omega)
    (TakesT.end2 (by simp) (hr rc (by simp)) (by simpa using List.perm_append_comm (l₂ := [t])))
  exact hfin.congr (add_zero _) (by omega) (by omega)

theorem Takes.addModInv (hcs : cs.flatten.length = c) (ra rb rm : Reg) (h0 : ra ≠ []) (hm : rm.length = ra.length) (hb : rb.length = ra.length + 1) :
    Takes cs (Arith.addModInv [ra, rb, rm] : M β _) [ra, rb, rm] [ra, rb, rm].flatten (Count.inv (Count.addMod ra.length 0) c) 0 (ra.length + 2 + c) := by
  have hpos := List.length_pos_iff.mpr h0
  have ne : ∀ r : Reg, 0 < r.length → r ≠ [] := fun r h => List.length_pos_iff.mp h
  have h1 := Takes.addMod (β := LocalBuilder) (cs := []) (c := 0) (by simp) (List.range' 0 ra.length) (List.range' (0 + ra.length) rb.length)
    (List.range' (0 + ra.length + rb.length) rm.length) (by simp; omega) (by simpa using hm) (by simpa using hb)
  simp only [List.length_range'] at h1
  exact (Takes.inverse (β := β) (cs := cs) (rs := [ra, rb, rm]) (f := Arith.addMod) (by simp) (by simp [h0, ne rb (by omega), ne rm (by omega)])
    (Quiet.addMod (β := LocalBuilder) (cs := []) (List.range' 0 ra.length) (List.range' (0 + ra.length) rb.length)
      (List.range' (0 + ra.length + rb.length) rm.length) (by simp; omega) (by simpa using hm) (by simpa using hb)) (.inl (by simp))
    h1 (Count.addMod_other _ _)).congr (by rw [hcs]) (le_refl _) (by omega)

/-! ## times_mod -/

/-- the first loop of `times_mod` -/
theorem Takes.timesStep (hcs : cs.flatten.length = c) {ra rb rm rp rt rc : Reg} {n i : ℕ} (hn0 : 0 < n) (hm : rm.length = n) (ha : ra.length = n + 1) (hp : rp.length = n + 1)
    (hc : rc.length = n) (ht : rt.length = rb.length) (hi : i < rb.length) :
    Takes cs (Verif.program [ra, rb, rm, rp, rt, rc]
        [.plain Arith.addInv [[(5, none)], [(2, none)], [(0, none)]],
         .control none (Verif.op1 Gate.x) [[(0, some [n])], [(4, some [i])]],
         .control none Arith.add [[(4, some [i])], [(5, none)], [(2, none)], [(0, none)]],
         .control none Arith.addMod [[(1, some [i])], [(0, some (List.range n))], [(3, none)], [(2, none)]],
         .plain Arith.rshift [[(0, none)]]] : M β _) [ra, rb, rm, rp, rt, rc] [ra, rb, rm, rp, rt, rc].flatten
      (Count.inv (Count.add n 0) c + tofP (c + 1) + Count.add n (c + 1) + Count.addMod n (c + 1) + Count.rshift (n + 1) c) (n + c + 3) (n + c + 3) := by
  have ne : ∀ r : Reg, 0 < r.length → r ≠ [] := fun r h => List.length_pos_iff.mp h
  have hr0 := ne ra (by omega)
  have hr1 := ne rb (by omega)
  have hr2 := ne rm (by omega)
  have hr3 := ne rp (by omega)
  have hr4 := ne rt (by omega)
  have hr5 := ne rc (by omega)
  refine Takes.program (by simp [hr0, hr1, hr2, hr3, hr4, hr5]) fun hn => ?_
  obtain ⟨rs, hrs⟩ : ∃ rs, rs = [ra, rb, rm, rp, rt, rc] := ⟨_, rfl⟩
  rw [← hrs] at hn ⊢
  have g0 : groupReg rs [(0, none)] = ra := by rw [groupReg_all, hrs]; rfl
  have g2 : groupReg rs [(2, none)] = rm := by rw [groupReg_all, hrs]; rfl
  have g3 : groupReg rs [(3, none)] = rp := by rw [groupReg_all, hrs]; rfl
  have g5 : groupReg rs [(5, none)] = rc := by rw [groupReg_all, hrs]; rfl
  have gn : groupReg rs [(0, some [n])] = [ra.getD n 0] := by rw [groupReg_one, hrs]; rfl
  have gr : groupReg rs [(0, some (List.range n))] = ra.take n := by rw [groupReg_one, hrs]; exact at_range ra n (by omega)
  have gb : groupReg rs [(1, some [i])] = [rb.getD i 0] := by rw [groupReg_one, hrs]; rfl
  have gt : groupReg rs [(4, some [i])] = [rt.getD i 0] := by rw [groupReg_one, hrs]; rfl
  have v1 : ValidGroups rs [[(5, none)], [(2, none)], [(0, none)]] :=
    valid_sels rs [(5, none), (2, none), (0, none)] (by simp) (by rw [hrs]; simp [SelOK, hr0, hr2, hr5])
  have v2 : ValidGroups rs [[(0, some [n])], [(4, some [i])]] :=
    valid_sels rs [(0, some [n]), (4, some [i])] (by simp) (by rw [hrs]; simp [SelOK, ha, ht, hi])
  have v3 : ValidGroups rs [[(4, some [i])], [(5, none)], [(2, none)], [(0, none)]] :=
    valid_sels rs [(4, some [i]), (5, none), (2, none), (0, none)] (by simp) (by rw [hrs]; simp [SelOK, hr0, hr2, hr5, ht, hi])
  have v4 : ValidGroups rs [[(1, some [i])], [(0, some (List.range n))], [(3, none)], [(2, none)]] :=
    valid_sels rs [(1, some [i]), (0, some (List.range n)), (3, none), (2, none)] (by simp) (by
      rw [hrs]
      simp only [List.mem_cons, List.not_mem_nil, or_false, forall_eq_or_imp, forall_eq]
      refine ⟨by simp [SelOK, hi], ⟨by simp, by simp; omega, List.nodup_range, ?_⟩, by simp [SelOK, hr3], by simp [SelOK, hr2]⟩
      intro j hj
      have := List.mem_range.mp hj
      show j < ra.length
      omega)
  have v5 : ValidGroups rs [[(0, none)]] := valid_sels rs [(0, none)] (by simp) (by rw [hrs]; simp [SelOK, hr0])
  have m1 := Takes.addInv (β := β) hcs rc rm ra hc hn0 hm ha
  have m2 := Takes.op1x (β := Conditioned β) (flat1 hcs (ra.getD n 0)) (rt.getD i 0)
  have m3 := Takes.add (β := Conditioned β) (flat1 hcs (rt.getD i 0)) rc rm ra hc hn0 hm ha
  have m4 := Takes.addMod (β := Conditioned β) (flat1 hcs (rb.getD i 0)) (ra.take n) rp rm (ne _ (by simp; omega)) (by simp; omega) (by simp; omega)
  rw [show (ra.take n).length = n by simp; omega] at m4
  have m5 := Takes.rshift (β := β) hcs ra ha (by omega)
  have h1 : Takes cs _ _ _ _ _ _ := Takes.lines_nil (β := β) (rs := rs)
  have h2 := Takes.plain hn v5 (as := [ra]) (by simp only [List.map_cons, List.map_nil, g0]) m5 h1
  have h3 := Takes.control hn v4 gb (as := [ra.take n, rp, rm]) (by simp only [List.map_cons, List.map_nil, gr, g3, g2]) (by simp) m4 h2
  have h4 := Takes.control hn v3 gt (as := [rc, rm, ra]) (by simp only [List.map_cons, List.map_nil, g5, g2, g0]) (by simp) m3 h3
  have h5 := Takes.control hn v2 gn (as := [[rt.getD i 0]]) (by simp only [List.map_cons, List.map_nil, gt]) (by simp) m2 h4
  have h6 := Takes.plain hn v1 (as := [rc, rm, ra]) (by simp only [List.map_cons, List.map_nil, g5, g2, g0]) m1 h5
  refine h6.congr ?_ (by omega) (by omega)
  simp only [add_assoc, add_zero]

/-- the second loop of `times_mod` -/
theorem Takes.timesBack (hcs : cs.flatten.length = c) {ra rm rt rc : Reg} {n i : ℕ} (hn0 : 0 < n) (hm : rm.length = n) (ha : ra.length = n + 1)
    (hc : rc.length = n) (hi : i < rt.length) :
    Takes cs (Verif.program [ra, rm, rt, rc]
            [.plain Arith.lshift [[(0, none)]],
             .control none Arith.addInv [[(2, some [i])], [(3, none)], [(1, none)], [(0, none)]],
             .control none (Verif.op1 Gate.x) [[(0, some [n])], [(2, some [i])]],
             .plain Arith.add [[(3, none)], [(1, none)], [(0, none)]]] : M β _) [ra, rm, rt, rc] [ra, rm, rt, rc].flatten
      (Count.inv (Count.rshift (n + 1) 0) c + Count.inv (Count.add n 0) (c + 1) + tofP (c + 1) + Count.add n c) c (c + 1) := by
  have ne : ∀ r : Reg, 0 < r.length → r ≠ [] := fun r h => List.length_pos_iff.mp h
  have hr0 := ne ra (by omega)
  have hr1 := ne rm (by omega)
  have hr2 := ne rt (by omega)
  have hr3 := ne rc (by omega)
  refine Takes.program (by simp [hr0, hr1, hr2, hr3]) fun hn => ?_
  obtain ⟨rs, hrs⟩ : ∃ rs, rs = [ra, rm, rt, rc] := ⟨_, rfl⟩
  rw [← hrs] at hn ⊢
  have g0 : groupReg rs [(0, none)] = ra := by rw [groupReg_all, hrs]; rfl
  have g1 : groupReg rs [(1, none)] = rm := by rw [groupReg_all, hrs]; rfl
  have g3 : groupReg rs [(3, none)] = rc := by rw [groupReg_all, hrs]; rfl
  have gn : groupReg rs [(0, some [n])] = [ra.getD n 0] := by rw [groupReg_one, hrs]; rfl
  have gt : groupReg rs [(2, some [i])] = [rt.getD i 0] := by rw [groupReg_one, hrs]; rfl
  have v1 : ValidGroups rs [[(0, none)]] := valid_sels rs [(0, none)] (by simp) (by rw [hrs]; simp [SelOK, hr0])
  have v2 : ValidGroups rs [[(2, some [i])], [(3, none)], [(1, none)], [(0, none)]] :=
    valid_sels rs [(2, some [i]), (3, none), (1, none), (0, none)] (by simp) (by rw [hrs]; simp [SelOK, hr0, hr1, hr3, hi])
  have v3 : ValidGroups rs [[(0, some [n])], [(2, some [i])]] :=
    valid_sels rs [(0, some [n]), (2, some [i])] (by simp) (by rw [hrs]; simp [SelOK, ha, hi])
  have v4 : ValidGroups rs [[(3, none)], [(1, none)], [(0, none)]] :=
    valid_sels rs [(3, none), (1, none), (0, none)] (by simp) (by rw [hrs]; simp [SelOK, hr0, hr1, hr3])
  have m1 := Takes.lshift (β := β) hcs ra ha (by omega)
  have m2 := Takes.addInv (β := Conditioned β) (flat1 hcs (rt.getD i 0)) rc rm ra hc hn0 hm ha
  have m3 := Takes.op1x (β := Conditioned β) (flat1 hcs (ra.getD n 0)) (rt.getD i 0)
  have m4 := Takes.add (β := β) hcs rc rm ra hc hn0 hm ha
  have h1 : Takes cs _ _ _ _ _ _ := Takes.lines_nil (β := β) (rs := rs)
  have h2 := Takes.plain hn v4 (as := [rc, rm, ra]) (by simp only [List.map_cons, List.map_nil, g3, g1, g0]) m4 h1
  have h3 := Takes.control hn v3 gn (as := [[rt.getD i 0]]) (by simp only [List.map_cons, List.map_nil, gt]) (by simp) m3 h2
  have h4 := Takes.control hn v2 gt (as := [rc, rm, ra]) (by simp only [List.map_cons, List.map_nil, g3, g1, g0]) (by simp) m2 h3
  have h5 := Takes.plain hn v1 (as := [ra]) (by simp only [List.map_cons, List.map_nil, g0]) m1 h4
  refine h5.congr ?_ (by omega) (by omega)
  simp only [add_assoc, add_zero]

theorem Takes.timesMod (hcs : cs.flatten.length = c) (ra rb rm rp : Reg) (hb : rb ≠ []) (hm : rm ≠ []) (ha : ra.length = rm.length + 1) (hp : rp.length = rm.length + 1) :
    Takes cs (Arith.timesMod [ra, rb, rm, rp] : M β _) [ra, rb, rm, rp] [ra, rb, rm, rp].flatten (Count.timesMod rm.length rb.length c)
      (2 * rm.length + rb.length + c + 3) (2 * rm.length + rb.length + c + 3) := by
  have hn0 := List.length_pos_iff.mpr hm
  have hk0 := List.length_pos_iff.mpr hb
  have ne : ∀ r : Reg, 0 < r.length → r ≠ [] := fun r h => List.length_pos_iff.mp h
  refine TakesT.takes ?_
  rw [Arith.timesMod, if_neg (by omega), if_neg (by omega)]
  refine TakesT.congr (TakesT.temp (lo := rm.length + c + 3 + rm.length) (hi := rm.length + c + 3 + rm.length) hk0 fun rt ht =>
    TakesT.temp (lo := rm.length + c + 3) (hi := rm.length + c + 3) (P := Count.timesMod rm.length rb.length c) hn0 fun rc hc => ?_) rfl (by omega) (by omega)
  have hr4 : rt ≠ [] := ne _ (by omega)
  have hr5 : rc ≠ [] := ne _ (by omega)
  have l1 := Takes.fold (cs := cs) (β := β) (a := [ra, rb, rm, rp, rt, rc]) (Q := [ra, rb, rm, rp, rt, rc].flatten) (List.range rb.length) (f := fun rs indx => Verif.program rs
        [.plain Arith.addInv [[(5, none)], [(2, none)], [(0, none)]],
         .control none (Verif.op1 Gate.x) [[(0, some [rm.length])], [(4, some [indx])]],
         .control none Arith.add [[(4, some [indx])], [(5, none)], [(2, none)], [(0, none)]],
         .control none Arith.addMod [[(1, some [indx])], [(0, some (List.range rm.length))], [(3, none)], [(2, none)]],
         .plain Arith.rshift [[(0, none)]]]) (fun i hi => Takes.timesStep hcs hn0 rfl ha hp hc ht (List.mem_range.mp hi)) (by simp; omega)
  have hperm : [ra, rb, rm, rp, rt, rc].flatten.Perm ([ra, rb, rm, rp].flatten ++ (rc ++ (rt ++ []))) := by
    simp only [List.flatten_cons, List.flatten_nil, List.append_nil]
    rw [List.perm_iff_count]
    intro q
    simp only [List.count_append]
    omega
  refine TakesT.congr (TakesT.bind (t := rc ++ (rt ++ [])) (Q := [ra, rb, rm, rp].flatten)
    (P' := rb.length • (Count.inv (Count.rshift (rm.length + 1) 0) c + Count.inv (Count.add rm.length 0) (c + 1) + tofP (c + 1) + Count.add rm.length c))
    (lo' := c) (hi' := c + 1) l1 hperm ?_) (by rw [List.length_range]; rfl) (by omega) (by omega)
  beta_reduce
  refine TakesT.congr (TakesT.bind (t := rc ++ (rt ++ [])) (Q := [ra, rb, rm, rp].flatten) (a := [ra, rb, rm, rp, rt, rc])
    (Takes.fold (P := Count.inv (Count.rshift (rm.length + 1) 0) c + Count.inv (Count.add rm.length 0) (c + 1) + tofP (c + 1) + Count.add rm.length c)
      (lo := c) (hi := c + 1) _ (fun i hi => ?_) (by simp; omega)) hperm (TakesT.end2 hr5 hr4 (by simp))) (by rw [add_zero, List.length_reverse, List.length_range]) (by omega) (by omega)
  refine Takes.congr (Takes.bind (a := [ra, rm, rt, rc]) (lo := c) (hi := c + 1) (P' := 0) (lo' := 0) (hi' := 0) ?_ (Takes.pure _ _)) (add_zero _) (by omega) (by omega)
  refine Takes.of_nodup fun hn => Takes.mono (Takes.timesBack hcs hn0 rfl ha hc (by simp at hi; omega)) ?_ fun q hq => by simp at hq ⊢; tauto
  have hsub : List.Sublist [ra, rm, rt, rc].flatten [ra, rb, rm, rp, rt, rc].flatten := by
    simp only [List.flatten_cons, List.flatten_nil, List.append_nil]
    refine (List.Sublist.refl ra).append ?_
    refine List.Sublist.trans ?_ (List.sublist_append_right rb _)
    exact (List.Sublist.refl rm).append (List.sublist_append_right rp _)
  exact hn.sublist hsub

theorem Takes.timesModInv (hcs : cs.flatten.length = c) (ra rb rm rp : Reg) (hb : rb ≠ []) (hm : rm ≠ []) (ha : ra.length = rm.length + 1) (hp : rp.length = rm.length + 1) :
    Takes cs (Arith.timesModInv [ra, rb, rm, rp] : M β _) [ra, rb, rm, rp] [ra, rb, rm, rp].flatten (Count.inv (Count.timesMod rm.length rb.length 0) c)
      0 (2 * rm.length + rb.length + 3 + c) := by
  have hn0 := List.length_pos_iff.mpr hm
  have hk0 := List.length_pos_iff.mpr hb
  have ne : ∀ r : Reg, 0 < r.length → r ≠ [] := fun r h => List.length_pos_iff.mp h
  have h1 := Takes.timesMod (β := LocalBuilder) (cs := []) (c := 0) (by simp) (List.range' 0 ra.length) (List.range' (0 + ra.length) rb.length)
      (List.range' (0 + ra.length + rb.length) rm.length) (List.range' (0 + ra.length + rb.length + rm.length) rp.length)
      (by simp; omega) (by simp; omega) (by simpa using ha) (by simpa using hp)
  simp only [List.length_range'] at h1
  exact (Takes.inverse (β := β) (cs := cs) (rs := [ra, rb, rm, rp]) (f := Arith.timesMod) (by simp) (by simp [hb, hm, ne ra (by omega), ne rp (by omega)])
    (Quiet.timesMod (β := LocalBuilder) (cs := []) (List.range' 0 ra.length) (List.range' (0 + ra.length) rb.length)
      (List.range' (0 + ra.length + rb.length) rm.length) (List.range' (0 + ra.length + rb.length + rm.length) rp.length)
      (by simp; omega) (by simp; omega) (by simpa using ha) (by simpa using hp)) (.inl (by simp))
    h1 (Count.timesMod_other _ _ _)).congr (by rw [hcs]) (le_refl _) (by omega)

/-! ## square_mod -/

theorem Takes.squareMod (hcs : cs.flatten.length = c) (ra rm rq : Reg) (hm : rm ≠ []) (ha : ra.length = rm.length + 1) (hq : rq.length = rm.length + 1) :
    Takes cs (Arith.squareMod [ra, rm, rq] : M β _) [ra, rm, rq] [ra, rm, rq].flatten (Count.squareMod rm.length c) (4 * rm.length + c + 3) (4 * rm.length + c + 3) := by
  have hn0 := List.length_pos_iff.mpr hm
  have h0 : ra ≠ [] := List.length_pos_iff.mp (by omega)
  have h2 : rq ≠ [] := List.length_pos_iff.mp (by omega)
  refine TakesT.takes ?_
  rw [Arith.squareMod, if_neg (by omega), if_neg (by omega)]
  refine TakesT.congr (TakesT.temp (lo := 3 * rm.length + c + 3) (hi := 3 * rm.length + c + 3) (P := Count.squareMod rm.length c) hn0 fun rt ht => ?_) rfl (by omega) (by omega)
  have h3 : rt ≠ [] := List.length_pos_iff.mp (by omega)
  have hp : Takes cs (Verif.program [ra, rm, rq, rt]
        [.plain Arith.copy [[(0, some (List.range rm.length))], [(3, none)]],
         .plain Arith.timesMod [[(0, none)], [(3, none)], [(1, none)], [(2, none)]],
         .plain Arith.copyInv [[(0, some (List.range rm.length))], [(3, none)]]] : M β _) [ra, rm, rq, rt] [ra, rm, rq, rt].flatten
      (Count.squareMod rm.length c) (3 * rm.length + c + 3) (3 * rm.length + c + 3) := by
    refine Takes.program (by simp [h0, hm, h2, h3]) fun hn => ?_
    obtain ⟨rs, hrs⟩ : ∃ rs, rs = [ra, rm, rq, rt] := ⟨_, rfl⟩
    rw [← hrs] at hn ⊢
    have g0 : groupReg rs [(0, none)] = ra := by rw [groupReg_all, hrs]; rfl
    have g1 : groupReg rs [(1, none)] = rm := by rw [groupReg_all, hrs]; rfl
    have g2 : groupReg rs [(2, none)] = rq := by rw [groupReg_all, hrs]; rfl
    have g3 : groupReg rs [(3, none)] = rt := by rw [groupReg_all, hrs]; rfl
    have gr : groupReg rs [(0, some (List.range rm.length))] = ra.take rm.length := by rw [groupReg_one, hrs]; exact at_range ra _ (by omega)
    have v1 : ValidGroups rs [[(0, some (List.range rm.length))], [(3, none)]] :=
      valid_sels rs [(0, some (List.range rm.length)), (3, none)] (by simp) (by
        rw [hrs]
        simp only [List.mem_cons, List.not_mem_nil, or_false, forall_eq_or_imp, forall_eq]
        refine ⟨⟨by simp, by simpa using hm, List.nodup_range, ?_⟩, by simp [SelOK, h3]⟩
        intro j hj
        have := List.mem_range.mp hj
        show j < ra.length
        omega)
    have v2 : ValidGroups rs [[(0, none)], [(3, none)], [(1, none)], [(2, none)]] :=
      valid_sels rs [(0, none), (3, none), (1, none), (2, none)] (by simp) (by rw [hrs]; simp [SelOK, h0, hm, h2, h3])
    have h4 : ra.take rm.length ≠ [] := List.length_pos_iff.mp (by simp; omega)
    have m1 := Takes.copy (β := β) hcs (ra.take rm.length) rt (n := rm.length) (by simp; omega) hn0 ht
    have m2 := Takes.timesMod (β := β) hcs ra rt rm rq h3 hm ha hq
    rw [ht] at m2
    have m3 := Takes.copyInv (β := β) hcs (ra.take rm.length) rt (n := rm.length) (by simp; omega) hn0 ht
    have k1 : Takes cs _ _ _ _ _ _ := Takes.lines_nil (β := β) (rs := rs)
    have k2 := Takes.plain hn v1 (as := [ra.take rm.length, rt]) (by simp only [List.map_cons, List.map_nil, gr, g3]) m3 k1
    have k3 := Takes.plain hn v2 (as := [ra, rt, rm, rq]) (by simp only [List.map_cons, List.map_nil, g0, g1, g2, g3]) m2 k2
    have k4 := Takes.plain hn v1 (as := [ra.take rm.length, rt]) (by simp only [List.map_cons, List.map_nil, gr, g3]) m1 k3
    refine k4.congr ?_ (by omega) (by omega)
    unfold Count.squareMod
    simp only [add_assoc, add_zero]
  exact (TakesT.bind (t := rt ++ []) (Q := [ra, rm, rq].flatten) hp (by simp) (TakesT.end1 h3 (by simp))).congr (add_zero _) (by omega) (by omega)

theorem Takes.squareModInv (hcs : cs.flatten.length = c) (ra rm rq : Reg) (hm : rm ≠ []) (ha : ra.length = rm.length + 1) (hq : rq.length = rm.length + 1) :
    Takes cs (Arith.squareModInv [ra, rm, rq] : M β _) [ra, rm, rq] [ra, rm, rq].flatten (Count.inv (Count.squareMod rm.length 0) c) 0 (4 * rm.length + 3 + c) := by
  have hn0 := List.length_pos_iff.mpr hm
  have ne : ∀ r : Reg, 0 < r.length → r ≠ [] := fun r h => List.length_pos_iff.mp h
  have h1 := Takes.squareMod (β := LocalBuilder) (cs := []) (c := 0) (by simp) (List.range' 0 ra.length) (List.range' (0 + ra.length) rm.length)
      (List.range' (0 + ra.length + rm.length) rq.length) (by simp; omega) (by simpa using ha) (by simpa using hq)
  simp only [List.length_range'] at h1
  exact (Takes.inverse (β := β) (cs := cs) (rs := [ra, rm, rq]) (f := Arith.squareMod) (by simp) (by simp [hm, ne ra (by omega), ne rq (by omega)])
    (Quiet.squareMod (β := LocalBuilder) (cs := []) (List.range' 0 ra.length) (List.range' (0 + ra.length) rm.length)
      (List.range' (0 + ra.length + rm.length) rq.length) (by simp; omega) (by simpa using ha) (by simpa using hq)) (.inl (by simp))
    h1 (Count.squareMod_other _ _)).congr (by rw [hcs]) (le_refl _) (by omega)

/-! ## exp_mod -/

theorem Count.expTemps_step (n k c : ℕ) (hk : 1 ≤ k) :
    max (max (3 * n + c + 5) (4 * n + c + 3)) (Count.expTemps n k c) + (n + 1) + (n + 1) = Count.expTemps n (k + 1) c := by
  unfold Count.expTemps
  rw [if_neg (by omega : ¬ k + 1 ≤ 1)]
  split
  · obtain rfl : k = 1 := by omega
    omega
  · obtain ⟨j, rfl⟩ : ∃ j, k = j + 2 := ⟨k - 2, by omega⟩
    rw [show j + 2 - 1 = j + 1 from rfl, show j + 2 + 1 - 1 = (j + 1) + 1 from rfl, Nat.mul_add (2 * (n + 1)) (j + 1) 1]
    have : 2 * (n + 1) * (j + 1) = 2 * (n + 1) * j + 2 * (n + 1) := by ring
    omega

theorem Count.expMod_step (n k c : ℕ) (hk : 1 ≤ k) : Count.expStep n c + Count.expMod n k c = Count.expMod n (k + 1) c := by
  unfold Count.expMod
  obtain ⟨j, rfl⟩ : ∃ j, k = j + 1 := ⟨k - 1, by omega⟩
  rw [show j + 1 - 1 = j from rfl, show j + 1 + 1 - 1 = j + 1 from rfl, add_smul j 1, one_smul]
  abel

theorem Count.expStep_eq (n k c : ℕ) (hk : 1 ≤ k) :
    2 • tofP c + Count.copy (n + 1) (c + 1) + (Count.timesMod n (n + 1) (c + 1) + (Count.squareMod n c + (Count.expMod n k c +
      (Count.inv (Count.squareMod n 0) c + (Count.inv (Count.timesMod n (n + 1) 0) (c + 1) + (2 • tofP c + Count.inv (Count.copy (n + 1) 0) (c + 1) + 0)))))) =
      Count.expMod n (k + 1) c := by
  rw [← Count.expMod_step _ _ _ hk, Count.expStep, Count.expLast]
  generalize Count.expMod n k c = x1
  generalize Count.inv (Count.copy (n + 1) 0) (c + 1) = x2
  generalize Count.inv (Count.timesMod n (n + 1) 0) (c + 1) = x3
  generalize Count.inv (Count.squareMod n 0) c = x4
  generalize Count.squareMod n c = x5
  generalize Count.timesMod n (n + 1) (c + 1) = x6
  generalize Count.copy (n + 1) (c + 1) = x7
  generalize 2 • tofP c = x8
  abel

theorem Count.expWidth1 (n E c : ℕ) (hn : 0 < n) : max (max (3 * n + c + 5) (4 * n + c + 3)) E ≤
    max (max (c - 2) (c + 1 - 1)) (max (2 * n + (n + 1) + (c + 1) + 3) (max (4 * n + c + 3) (max E (max 0 (max 0 (max (max (c - 2) 0) 0)))))) := by
  refine Nat.max_le.mpr ⟨Nat.max_le.mpr ⟨?_, ?_⟩, ?_⟩
  · exact le_trans (by omega) (le_trans (Nat.le_max_left (2 * n + (n + 1) + (c + 1) + 3) _) (Nat.le_max_right _ _))
  · exact le_trans (le_trans (Nat.le_max_left (4 * n + c + 3) _) (Nat.le_max_right _ _)) (Nat.le_max_right _ _)
  · exact le_trans (le_trans (le_trans (Nat.le_max_left E _) (Nat.le_max_right _ _)) (Nat.le_max_right _ _)) (Nat.le_max_right _ _)

theorem Count.expWidth2 (n E c : ℕ) (hn : 0 < n) :
    max (max (c - 2) (c + 1 - 1)) (max (2 * n + (n + 1) + (c + 1) + 3) (max (4 * n + c + 3) (max E (max (4 * n + 3 + c) (max (2 * n + (n + 1) + 3 + (c + 1))
      (max (max (c - 2) (c + 1)) 0)))))) ≤ max (max (3 * n + c + 5) (4 * n + c + 3)) E := by
  simp only [Nat.max_le]
  have h1 := Nat.le_max_left (3 * n + c + 5) (4 * n + c + 3)
  have h2 := Nat.le_max_right (3 * n + c + 5) (4 * n + c + 3)
  generalize max (3 * n + c + 5) (4 * n + c + 3) = W at *
  have h3 := Nat.le_max_left W E
  have h4 := Nat.le_max_right W E
  generalize max W E = V at *
  omega

theorem Takes.expStep (hcs : cs.flatten.length = c) (f : List Reg → M β (List Reg)) (ra rb rm rp re ru rv : Reg) (hk' : rb.length = k + 1) (hk : 1 ≤ k) (hm : rm ≠ [])
    (ha : ra.length = rm.length + 1) (hp : rp.length = rm.length + 1) (he : re.length = rm.length + 1) (hu : ru.length = rm.length + 1) (hv : rv.length = rm.length + 1)
    (hf : ∀ bt : Reg, bt.length = k → bt ≠ [] → Takes cs (f [ru, bt, rm, rv, re]) [ru, bt, rm, rv, re] [ru, bt, rm, rv, re].flatten (Count.expMod rm.length k c)
      (Count.expTemps rm.length k c) (Count.expTemps rm.length k c)) :
    Takes cs (Verif.program [ra, rb, rm, rp, re, ru, rv]
        [.control (some 0) Arith.copy [[(1, some [0])], [(3, none)], [(6, none)]],
         .control none Arith.timesMod [[(1, some [0])], [(0, none)], [(3, none)], [(2, none)], [(4, none)]],
         .plain Arith.squareMod [[(0, none)], [(2, none)], [(5, none)]],
         .plain f [[(5, none)], [(1, some (List.range' 1 (k + 1 - 1)))], [(2, none)], [(6, none)], [(4, none)]],
         .plain Arith.squareModInv [[(0, none)], [(2, none)], [(5, none)]],
         .control none Arith.timesModInv [[(1, some [0])], [(0, none)], [(3, none)], [(2, none)], [(4, none)]],
         .control (some 0) Arith.copyInv [[(1, some [0])], [(3, none)], [(6, none)]]] : M β _) [ra, rb, rm, rp, re, ru, rv]
          [ra, rb, rm, rp, re, ru, rv].flatten (Count.expMod rm.length (k + 1) c)
      (max (max (3 * rm.length + c + 5) (4 * rm.length + c + 3)) (Count.expTemps rm.length k c))
      (max (max (3 * rm.length + c + 5) (4 * rm.length + c + 3)) (Count.expTemps rm.length k c)) := by
  have ne : ∀ r : Reg, 0 < r.length → r ≠ [] := fun r h => List.length_pos_iff.mp h
  have hn0 := List.length_pos_iff.mpr hm
  have hb := ne rb (by omega)
  have h0 := ne ra (by omega)
  have h3 := ne rp (by omega)
  have h4 := ne re (by omega)
  have h5 := ne ru (by omega)
  have h6 := ne rv (by omega)
  refine Takes.program (by simp [h0, hm, hb, h3, h4, h5, h6]) fun hn => ?_
  obtain ⟨b0, bt, rfl⟩ := List.exists_cons_of_ne_nil hb
  obtain ⟨rs, hrs⟩ : ∃ rs, rs = [ra, b0 :: bt, rm, rp, re, ru, rv] := ⟨_, rfl⟩
  rw [← hrs] at hn ⊢
  have hbt : bt ≠ [] := by rintro rfl; simp at hk'; omega
  have hbk : bt.length = k := by simpa using hk'
  rw [Nat.add_sub_cancel, ← hbk]
  have g0 : groupReg rs [(0, none)] = ra := by rw [groupReg_all, hrs]; rfl
  have g1 : groupReg rs [(1, some [0])] = [b0] := by rw [groupReg_one, hrs]; rfl
  have g1' : groupReg rs [(1, some (List.range' 1 bt.length))] = bt := by rw [groupReg_one, hrs]; exact at_tail b0 bt
  have g2 : groupReg rs [(2, none)] = rm := by rw [groupReg_all, hrs]; rfl
  have g3 : groupReg rs [(3, none)] = rp := by rw [groupReg_all, hrs]; rfl
  have g4 : groupReg rs [(4, none)] = re := by rw [groupReg_all, hrs]; rfl
  have g5 : groupReg rs [(5, none)] = ru := by rw [groupReg_all, hrs]; rfl
  have g6 : groupReg rs [(6, none)] = rv := by rw [groupReg_all, hrs]; rfl
  have v1 : ValidGroups rs [[(1, some [0])], [(3, none)], [(6, none)]] :=
    valid_sels rs [(1, some [0]), (3, none), (6, none)] (by simp) (by rw [hrs]; simp [SelOK, h3, h6])
  have v2 : ValidGroups rs [[(1, some [0])], [(0, none)], [(3, none)], [(2, none)], [(4, none)]] :=
    valid_sels rs [(1, some [0]), (0, none), (3, none), (2, none), (4, none)] (by simp) (by rw [hrs]; simp [SelOK, h0, hm, h3, h4])
  have v3 : ValidGroups rs [[(0, none)], [(2, none)], [(5, none)]] :=
    valid_sels rs [(0, none), (2, none), (5, none)] (by simp) (by rw [hrs]; simp [SelOK, h0, hm, h5])
  have v4 : ValidGroups rs [[(5, none)], [(1, some (List.range' 1 bt.length))], [(2, none)], [(6, none)], [(4, none)]] :=
    valid_sels rs [(5, none), (1, some (List.range' 1 bt.length)), (2, none), (6, none), (4, none)] (by simp) (by
      rw [hrs]
      simp only [List.mem_cons, List.not_mem_nil, or_false, forall_eq_or_imp, forall_eq]
      refine ⟨by simp [SelOK, h5], ⟨by simp, by simpa using hbt, List.nodup_range', ?_⟩, by simp [SelOK, hm], by simp [SelOK, h6], by simp [SelOK, h4]⟩
      intro j hj
      have := List.mem_range'_1.mp hj
      show j < (b0 :: bt).length
      rw [List.length_cons]
      omega)
  have m1 := Takes.copy (β := Conditioned β) (flat1 hcs b0) rp rv hp (by omega) hv
  have m2 := Takes.timesMod (β := Conditioned β) (flat1 hcs b0) ra rp rm re h3 hm ha he
  have m3 := Takes.squareMod (β := β) hcs ra rm ru hm ha hu
  have m4 := hf bt hbk hbt
  have m5 := Takes.squareModInv (β := β) hcs ra rm ru hm ha hu
  have m6 := Takes.timesModInv (β := Conditioned β) (flat1 hcs b0) ra rp rm re h3 hm ha he
  have m7 := Takes.copyInv (β := Conditioned β) (flat1 hcs b0) rp rv hp (by omega) hv
  rw [hp] at m2 m6
  have k0 : Takes cs _ _ _ _ _ _ := Takes.lines_nil (β := β) (rs := rs)
  have k1 := Takes.masked hn v1 g1 (as := [rp, rv]) (by simp only [List.map_cons, List.map_nil, g3, g6]) m7 k0
  have k2 := Takes.control hn v2 g1 (as := [ra, rp, rm, re]) (by simp only [List.map_cons, List.map_nil, g0, g3, g2, g4]) (by simp) m6 k1
  have k3 := Takes.plain hn v3 (as := [ra, rm, ru]) (by simp only [List.map_cons, List.map_nil, g0, g2, g5]) m5 k2
  have k4 := Takes.plain hn v4 (as := [ru, bt, rm, rv, re]) (by simp only [List.map_cons, List.map_nil, g5, g1', g2, g6, g4]) m4 k3
  have k5 := Takes.plain hn v3 (as := [ra, rm, ru]) (by simp only [List.map_cons, List.map_nil, g0, g2, g5]) m3 k4
  have k6 := Takes.control hn v2 g1 (as := [ra, rp, rm, re]) (by simp only [List.map_cons, List.map_nil, g0, g3, g2, g4]) (by simp) m2 k5
  have k7 := Takes.masked hn v1 g1 (as := [rp, rv]) (by simp only [List.map_cons, List.map_nil, g3, g6]) m1 k6
  rw [hcs] at k7
  rw [hbk]
  rw [hbk] at k7
  refine k7.congr ?_ (Count.expWidth1 _ _ _ (by omega)) (Count.expWidth2 _ _ _ (by omega))
  exact Count.expStep_eq _ _ _ (by omega)

theorem Takes.expModF (hcs : cs.flatten.length = c) (d : ℕ) (ra rb rm rp re : Reg) (hd : rb.length ≤ d) (hb : rb ≠ []) (hm : rm ≠ []) (ha : ra.length = rm.length + 1)
    (hp : rp.length = rm.length + 1) (he : re.length = rm.length + 1) :
    Takes cs (Arith.expModF d [ra, rb, rm, rp, re] : M β _) [ra, rb, rm, rp, re] [ra, rb, rm, rp, re].flatten (Count.expMod rm.length rb.length c)
      (Count.expTemps rm.length rb.length c) (Count.expTemps rm.length rb.length c) := by
  induction d generalizing ra rb rp re with
  | zero => simp at hd; exact absurd hd hb
  | succ d ih =>
    have hn0 := List.length_pos_iff.mpr hm
    have hk0 := List.length_pos_iff.mpr hb
    have h0 : ra ≠ [] := List.length_pos_iff.mp (by omega)
    have h3 : rp ≠ [] := List.length_pos_iff.mp (by omega)
    have h4 : re ≠ [] := List.length_pos_iff.mp (by omega)
    rw [Arith.expModF, if_neg (by omega), if_neg (by omega), if_neg (by omega)]
    by_cases hk : rb.length = 1
    · rw [if_pos hk]
      refine Takes.program (by simp [h0, hm, hb, h3, h4]) fun hn => ?_
      obtain ⟨rs, hrs⟩ : ∃ rs, rs = [ra, rb, rm, rp, re] := ⟨_, rfl⟩
      rw [← hrs] at hn ⊢
      have g0 : groupReg rs [(0, none)] = ra := by rw [groupReg_all, hrs]; rfl
      have g1 : groupReg rs [(1, some [0])] = [rb.getD 0 0] := by rw [groupReg_one, hrs]; rfl
      have g2 : groupReg rs [(2, none)] = rm := by rw [groupReg_all, hrs]; rfl
      have g3 : groupReg rs [(3, none)] = rp := by rw [groupReg_all, hrs]; rfl
      have g4 : groupReg rs [(4, none)] = re := by rw [groupReg_all, hrs]; rfl
      have v1 : ValidGroups rs [[(1, some [0])], [(3, none)], [(4, none)]] :=
        valid_sels rs [(1, some [0]), (3, none), (4, none)] (by simp) (by rw [hrs]; simp [SelOK, h3, h4, hk])
      have v2 : ValidGroups rs [[(1, some [0])], [(0, none)], [(3, none)], [(2, none)], [(4, none)]] :=
        valid_sels rs [(1, some [0]), (0, none), (3, none), (2, none), (4, none)] (by simp) (by rw [hrs]; simp [SelOK, h0, hm, h3, h4, hk])
      have m1 := Takes.copy (β := Conditioned β) (flat1 hcs (rb.getD 0 0)) rp re hp (by omega) he
      have m2 := Takes.timesMod (β := Conditioned β) (flat1 hcs (rb.getD 0 0)) ra rp rm re h3 hm ha he
      rw [hp] at m2
      have k1 : Takes cs _ _ _ _ _ _ := Takes.lines_nil (β := β) (rs := rs)
      have k2 := Takes.control hn v2 g1 (as := [ra, rp, rm, re]) (by simp only [List.map_cons, List.map_nil, g0, g3, g2, g4]) (by simp) m2 k1
      have k3 := Takes.masked hn v1 g1 (as := [rp, re]) (by simp only [List.map_cons, List.map_nil, g3, g4]) m1 k2
      rw [hcs] at k3
      have et : Count.expTemps rm.length rb.length c = 3 * rm.length + c + 5 := by rw [Count.expTemps, if_pos (by omega)]
      rw [et]
      refine k3.congr ?_ (by omega) (by omega)
      rw [hk, Count.expMod, Nat.sub_self, zero_smul, zero_add, add_zero, Count.expLast]
    · rw [if_neg hk]
      refine TakesT.takes ?_
      obtain ⟨k, hk'⟩ : ∃ k, rb.length = k + 1 := ⟨rb.length - 1, by omega⟩
      have hT := Count.expTemps_step rm.length k c (by omega)
      generalize hX : max (max (3 * rm.length + c + 5) (4 * rm.length + c + 3)) (Count.expTemps rm.length k c) = X at hT
      rw [hk', ← hT]
      refine TakesT.temp (by omega) fun ru hu => TakesT.temp (by omega) fun rv hv => ?_
      have h5 : ru ≠ [] := List.length_pos_iff.mp (by omega)
      have h6 : rv ≠ [] := List.length_pos_iff.mp (by omega)
      have hpr := Takes.expStep (β := β) hcs (Arith.expModF d) ra rb rm rp re ru rv hk' (by omega) hm ha hp he hu hv
        (fun bt h1 h2 => by
          have := ih ru bt rv re (by omega) h2 hu hv he
          rwa [h1] at this)
      rw [hX] at hpr
      refine (TakesT.bind (t := rv ++ (ru ++ [])) (Q := [ra, rb, rm, rp, re].flatten) hpr ?_ (TakesT.end2 h5 h6 (by simpa using List.perm_append_comm))).congr (add_zero _)
        (by omega) (by omega)
      simp only [List.flatten_cons, List.flatten_nil, List.append_nil]
      rw [List.perm_iff_count]
      intro q
      simp only [List.count_append]
      omega

theorem Takes.expMod (hcs : cs.flatten.length = c) (ra rb rm rp re : Reg) (hb : rb ≠ []) (hm : rm ≠ []) (ha : ra.length = rm.length + 1)
    (hp : rp.length = rm.length + 1) (he : re.length = rm.length + 1) :
    Takes cs (Arith.expMod [ra, rb, rm, rp, re] : M β _) [ra, rb, rm, rp, re] [ra, rb, rm, rp, re].flatten (Count.expMod rm.length rb.length c)
      (Count.expTemps rm.length rb.length c) (Count.expTemps rm.length rb.length c) :=
  Takes.expModF hcs _ ra rb rm rp re (by simp) hb hm ha hp he

theorem Takes.expModInv (hcs : cs.flatten.length = c) (ra rb rm rp re : Reg) (hb : rb ≠ []) (hm : rm ≠ []) (ha : ra.length = rm.length + 1)
    (hp : rp.length = rm.length + 1) (he : re.length = rm.length + 1) :
    Takes cs (Arith.expModInv [ra, rb, rm, rp, re] : M β _) [ra, rb, rm, rp, re] [ra, rb, rm, rp, re].flatten
      (Count.inv (Count.expMod rm.length rb.length 0) c) 0 (Count.expTemps rm.length rb.length 0 + c) := by
  have hn0 := List.length_pos_iff.mpr hm
  have hk0 := List.length_pos_iff.mpr hb
  have ne : ∀ r : Reg, 0 < r.length → r ≠ [] := fun r h => List.length_pos_iff.mp h
  have h1 := Takes.expMod (β := LocalBuilder) (cs := []) (c := 0) (by simp) (List.range' 0 ra.length) (List.range' (0 + ra.length) rb.length)
      (List.range' (0 + ra.length + rb.length) rm.length) (List.range' (0 + ra.length + rb.length + rm.length) rp.length)
      (List.range' (0 + ra.length + rb.length + rm.length + rp.length) re.length)
      (by simp; omega) (by simp; omega) (by simpa using ha) (by simpa using hp) (by simpa using he)
  simp only [List.length_range'] at h1
  exact (Takes.inverse (β := β) (cs := cs) (rs := [ra, rb, rm, rp, re]) (f := Arith.expMod) (by simp) (by simp [hb, hm, ne ra (by omega), ne rp (by omega), ne re (by omega)])
    (Quiet.expMod (β := LocalBuilder) (cs := []) (List.range' 0 ra.length) (List.range' (0 + ra.length) rb.length)
      (List.range' (0 + ra.length + rb.length) rm.length) (List.range' (0 + ra.length + rb.length + rm.length) rp.length)
      (List.range' (0 + ra.length + rb.length + rm.length + rp.length) re.length)
      (by simp; omega) (by simp; omega) (by simpa using ha) (by simpa using hp) (by simpa using he)) (.inl (by simp))
    h1 (Count.expMod_other _ _ _)).congr (by rw [hcs]) (le_refl _) (by omega)

end

end Verif
