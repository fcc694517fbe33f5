import Verif.Proofs.Sim

/-! # Gates through a builder with conditions -/

namespace Verif
open Classical Complex RegOps CircuitBuilder Rooted TempBuilder

variable {ang : Rot → ℝ} {β : Type}

theorem ctlW_nil (W : Wave →ₗ[ℂ] Wave) (x : Asg) : ctlW [] W x = W (ket x) := by simp [ctlW]

/-- controlled gates one after the other -/
theorem ctlW_comp {cs : List ℕ} {W V : Wave →ₗ[ℂ] Wave} (x : Asg) (hW : On {y | ∀ c ∈ cs, y c = x c} (W (ket x))) :
    lift (ctlW cs V) (ctlW cs W x) = ctlW cs (V ∘ₗ W) x := by
  unfold ctlW
  by_cases h : ∀ c ∈ cs, x c = true
  · rw [if_pos h, if_pos h]
    have := ctl_on (B := V) hW
    rw [if_pos h] at this
    exact this
  · rw [if_neg h, if_neg h, lift_ket, if_neg h]

/-- a result on a basis state, then something else -/
theorem lift_ket' (V : Asg → Wave) (f : Asg → Asg) (x : Asg) : lift V (ket (f x)) = V (f x) := lift_ket _ _

section
variable [Conditionable β] [Rooted β] [Sim β]

theorem flatten_ne {s : β} {cs : List Reg} (h : ctl s = some cs) (hc : cs ≠ []) : cs.flatten ≠ [] := by
  cases cs with
  | nil => exact absurd rfl hc
  | cons c cs =>
    have := Sim.ctl_ne h c (by simp)
    simp [this]

/-- objects for which conditioning works: an object on `r` with action `W`, applied with no condition or under one -/
structure Good (ang : Rot → ℝ) (r : Reg) (co : CObj) (W : Wave →ₗ[ℂ] Wave) : Prop where
  free : ∀ (s : LocalBuilder) (L : List ℕ), Own s (r ++ L) → Does ang (LocalBuilder.applyCO r co) s r (r ++ L) fun x => W (ket x)
  cond : ∀ (s : LocalBuilder) (cr L : List ℕ), cr ≠ [] → Own s (cr ++ r ++ L) →
    Does ang (LocalBuilder.tryCond cr r co) s (cr, r) (cr ++ r ++ L) (ctlW cr W)

theorem Good.applyCO {r : Reg} {co : CObj} {W : Wave →ₗ[ℂ] Wave} (g : Good ang r co W) {s : β} {cs : List Reg} {L : List ℕ}
    (hs : ctl s = some cs) (ho : Own (root s) (cs.flatten ++ r ++ L)) :
    Does ang (CircuitBuilder.applyCO r co) s r (cs.flatten ++ r ++ L) (ctlW cs.flatten W) := by
  by_cases hc : cs = []
  · subst hc
    refine (Does.of_root (g.free (root s) L ho) fun b hb => Sim.applyCO_nil hs hb).congrU fun x _ => ?_
    exact (ctlW_nil W x).symm
  · exact Does.of_root' (g.cond (root s) cs.flatten L (flatten_ne hs hc) ho) fun b hb =>
      Sim.applyCO hs hc (List.nodup_append.mp (List.nodup_append.mp ho.left).1).1 hb

theorem Good.gate {r : Reg} {co : CObj} {W : Wave →ₗ[ℂ] Wave} (g : Good ang r co W) {s : β} {cs : List Reg} {L : List ℕ}
    (hs : ctl s = some cs) (ho : Own (root s) (cs.flatten ++ r ++ L)) {mk : β → CObj} (hmk : ∀ s, mk s = co) :
    Does ang (gate mk r) s r (cs.flatten ++ r ++ L) (ctlW cs.flatten W) := by
  obtain ⟨s', h1, h2⟩ := (g.applyCO hs ho).unwrap
  refine ⟨s', ?_, h2⟩
  unfold Verif.gate
  rw [bind_ok (get_run s), hmk s]
  exact h1

theorem good_free1 (u : UObj) (hu : u.Shape 1) (hg : (∀ ρ, u ≠ .GlobalPhase ρ) ∧ ∀ d, u ≠ .MAT d) (q : ℕ) (s : LocalBuilder) (L : List ℕ)
    (ho : Own s ([q] ++ L)) : Does ang (LocalBuilder.applyCO [q] ⟨1, .unitary u⟩) s [q] ([q] ++ L) fun x => u1 ang q u (ket x) :=
  (applyCO_one_emits [q] (by simp) (by simp) (.unitary u)).does ang ho (segOK_each ho [q] (by simp) u hu hg)

theorem good_X (q : ℕ) : Good ang [q] ⟨1, .unitary .X⟩ (u1 ang q .X) where
  free s L ho := good_free1 .X rfl (by simp) q s L ho
  cond s cr L hc ho := (condX_does ang cr [q] L s hc ho 1 (by simp)).congrU fun x _ => by
    rw [show ([q] : List ℕ).length = 1 from rfl, tofPhase_one, one_smul]; rfl

theorem good_Z (q : ℕ) : Good ang [q] ⟨1, .unitary .Z⟩ (u1 ang q .Z) where
  free s L ho := good_free1 .Z rfl (by simp) q s L ho
  cond s cr L hc ho := (condZ_does ang cr [q] L s hc ho 1 (by simp)).congrU fun x _ => by
    rw [show ([q] : List ℕ).length = 1 from rfl, tofPhase_one, one_smul]; rfl

theorem good_S (q : ℕ) : Good ang [q] ⟨1, .unitary .S⟩ (u1 ang q .S) where
  free s L ho := good_free1 .S rfl (by simp) q s L ho
  cond s cr L hc ho := condS_does ang cr L q s hc ho 1

theorem good_T (q : ℕ) : Good ang [q] ⟨1, .unitary .T⟩ (u1 ang q .T) where
  free s L ho := good_free1 .T rfl (by simp) q s L ho
  cond s cr L hc ho := condT_does ang cr L q s hc ho 1

theorem good_cnot (a b : ℕ) (hab : a ≠ b) : Good ang [a, b] ⟨2, .unitary .CNOT⟩ (gateW [a, b] (uMat ang 2 .CNOT)) where
  free s L ho := by
    refine ((applyCO_n_emits [a, b] ⟨2, .unitary .CNOT⟩ rfl (by simp)).does ang ho
      (segOK_one ho [a, b] (by simpa using hab) (by simp) .CNOT rfl (by simp) 2 rfl)).congrU fun x _ => rfl
  cond s cr L hc ho := condCnot_does ang cr L a b s hc ho 2

section
variable {s : β} {cs : List Reg} {L : List ℕ} (hs : ctl s = some cs)
include hs

section
variable {q : ℕ} (ho : Own (root s) (cs.flatten ++ [q] ++ L))
include ho

theorem sim_x : Does ang (Gate.x [q]) s [q] (cs.flatten ++ [q] ++ L) (ctlW cs.flatten (u1 ang q .X)) :=
  (good_X q).gate hs ho Sim.makeX
theorem sim_z : Does ang (Gate.z [q]) s [q] (cs.flatten ++ [q] ++ L) (ctlW cs.flatten (u1 ang q .Z)) :=
  (good_Z q).gate hs ho Sim.makeZ
theorem sim_s : Does ang (Gate.s [q]) s [q] (cs.flatten ++ [q] ++ L) (ctlW cs.flatten (u1 ang q .S)) :=
  (good_S q).gate hs ho Sim.makeS
theorem sim_t : Does ang (Gate.t [q]) s [q] (cs.flatten ++ [q] ++ L) (ctlW cs.flatten (u1 ang q .T)) :=
  (good_T q).gate hs ho Sim.makeT

omit hs in
theorem keeps (m : ℕ → ℕ → ℂ) (x : Asg) : On {y | ∀ c ∈ cs.flatten, y c = x c} (gateW [q] m (ket x)) :=
  On.eachW m [q] cs.flatten (disj cs.flatten [q] L (root s) ho) x (On.ket fun _ _ => rfl)

theorem sim_sDagger : Does ang (sDagger [q]) s [q] (cs.flatten ++ [q] ++ L) (ctlW cs.flatten (u1 ang q .S ∘ₗ u1 ang q .Z)) :=
  (Does.bind (sim_z hs ho) fun _ h1 o1 => sim_s (h1.trans hs) o1).congrU fun x _ => ctlW_comp x (keeps ho _ x)

theorem sim_tDagger : Does ang (tDagger [q]) s [q] (cs.flatten ++ [q] ++ L)
    (ctlW cs.flatten (u1 ang q .T ∘ₗ u1 ang q .S ∘ₗ u1 ang q .Z)) :=
  (Does.bind (sim_sDagger hs ho) fun _ h1 o1 => sim_t (h1.trans hs) o1).congrU fun x _ => ctlW_comp x
    ((keeps ho _ x).gate [q] _ fun y hy c d hd => by
      have hne : d ∉ [q] := disj cs.flatten [q] L (root s) ho d hd
      rw [writeQ_not_mem _ _ _ _ hne]; exact hy d hd)

end

/-- CNOT with any number of targets -/
theorem sim_cnot {c : ℕ} {r : Reg} (hr : r ≠ []) (ho : Own (root s) (cs.flatten ++ (c :: r) ++ L)) :
    Does ang (cnot [c] r) s ([c], r) (cs.flatten ++ (c :: r) ++ L)
      (fun x => ket (if (∀ d ∈ cs.flatten, x d = true) ∧ x c = true then flipAll r x else x)) := by
  have hnd : (c :: r).Nodup := (List.nodup_append.mp (List.nodup_append.mp ho.left).1).2.1
  have hdis : ∀ d ∈ cs.flatten, d ∉ c :: r := disj cs.flatten (c :: r) L (root s) ho
  -- one target
  have step : ∀ (s' : β) (acc : List Reg) (q : ℕ), q ∈ r → ctl s' = some cs → Own (root s') (cs.flatten ++ (c :: r) ++ L) →
      Does ang (cnotStep ([c], acc) [q]) s' ([c], acc ++ [[q]]) (cs.flatten ++ (c :: r) ++ L)
        (fun x => ket (if (∀ d ∈ cs.flatten, x d = true) ∧ x c = true then flipQ q x else x)) := by
    intro s' acc q hq hs' ho'
    have hcq : c ≠ q := by
      rintro rfl; exact (List.nodup_cons.mp hnd).1 hq
    obtain ⟨r1, r2, hr12⟩ := List.append_of_mem hq
    have perm : (cs.flatten ++ (c :: r) ++ L).Perm (cs.flatten ++ [c, q] ++ (r1 ++ r2 ++ L)) := by
      simp only [List.append_assoc, hr12]
      apply List.Perm.append_left
      simp only [List.cons_append, List.nil_append]
      apply List.Perm.cons
      simp only [List.append_assoc, List.cons_append]
      exact List.perm_middle
    have h1 := (good_cnot (ang := ang) c q hcq).applyCO hs' (ho'.perm perm)
    have h2 := Does.bind (f := fun r => do
      match ← splitRel r [0] with
      | .split cr r => pure (cr, acc ++ [r])
      | .selected _ => throw .panic
      | .unselected _ => throw .panic) (c := ([c], acc ++ [[q]])) (L2 := cs.flatten ++ (c :: r) ++ L) (V := ket) h1 (by
        intro s2 _ o2
        rw [LawfulReg.splitRel_eq, splitE_head c [q] (by simpa using hcq) (by simp)]
        exact Does.pure (o2.perm perm.symm) _)
    obtain ⟨s2, k1, k2⟩ := h2
    refine Does.congrU (U := fun x => lift ket (ctlW cs.flatten (gateW [c, q] (uMat ang 2 .CNOT)) x)) ⟨s2, ?_, k2⟩ ?_
    · unfold cnotStep
      rw [LawfulReg.mergeTwo_eq _ _ (by simp), pure_bind, bind_ok (get_run s'), Sim.makeCnot]
      exact k1
    · intro x _
      rw [lift_ket_id, LinearMap.id_apply]
      unfold ctlW
      rw [cnot_ket ang c q hcq]
      by_cases h : ∀ d ∈ cs.flatten, x d = true
      · rw [if_pos h]
        by_cases hx : x c = true
        · rw [if_pos hx, if_pos ⟨h, hx⟩]
        · rw [if_neg hx, if_neg (fun hh => hx hh.2)]
      · rw [if_neg h, if_neg (fun hh => h hh.1)]
  -- all targets
  have fold : ∀ (t : Reg) (s' : β) (acc : List Reg), (∀ q ∈ t, q ∈ r) → t.Nodup → ctl s' = some cs →
      Own (root s') (cs.flatten ++ (c :: r) ++ L) →
      Does ang ((t.map fun q => [q]).foldlM cnotStep ([c], acc)) s' ([c], acc ++ t.map fun q => [q]) (cs.flatten ++ (c :: r) ++ L)
        (fun x => ket (if (∀ d ∈ cs.flatten, x d = true) ∧ x c = true then flipAll t x else x)) := by
    intro t
    induction t with
    | nil =>
      intro s' acc _ _ _ ho'
      refine (Does.pure ho' _).congr (by simp) (List.Perm.refl _) fun x _ => ?_
      rw [flipAll_nil, ite_self]
    | cons q t ih =>
      intro s' acc hq ht hs' ho'
      obtain ⟨t1, t2⟩ := List.nodup_cons.mp ht
      rw [List.map_cons, List.foldlM_cons]
      refine (Does.bind (step s' acc q (hq q (by simp)) hs' ho') fun s2 h2 o2 =>
        ih s2 (acc ++ [[q]]) (fun p hp => hq p (by simp [hp])) t2 (h2.trans hs') o2).congr (by simp) (List.Perm.refl _) fun x _ => ?_
      rw [lift_ket' _ (fun x => if (∀ d ∈ cs.flatten, x d = true) ∧ x c = true then flipQ q x else x)]
      have hqr : q ∈ r := hq q (by simp)
      by_cases h : (∀ d ∈ cs.flatten, x d = true) ∧ x c = true
      · have h2 : (∀ d ∈ cs.flatten, flipQ q x d = true) ∧ flipQ q x c = true := by
          refine ⟨fun d hd => ?_, ?_⟩
          · rw [flipQ_of_ne]
            · exact h.1 d hd
            · rintro rfl; exact hdis d hd (by simp [hqr])
          · rw [flipQ_of_ne]
            · exact h.2
            · rintro rfl; exact (List.nodup_cons.mp hnd).1 hqr
        simp only [if_pos h, if_pos h2]
        rw [flipAll_cons q t t1]
      · simp only [if_neg h]
  have h1 := Does.bind (f := fun p => do
      let m ← mergeRegisters p.2
      let r ← unwrapO m
      pure (p.1, r)) (c := ([c], r)) (L2 := cs.flatten ++ (c :: r) ++ L) (V := ket)
    (fold r s [] (fun _ h => h) (List.nodup_cons.mp hnd).2 hs ho) (by
      intro s2 _ o2
      simp only [List.nil_append]
      rw [mergeSingles r hr]
      exact Does.pure o2 _)
  refine Does.congrU ?_ (U := fun x => lift ket (ket (if (∀ d ∈ cs.flatten, x d = true) ∧ x c = true then flipAll r x else x)))
    fun x _ => lift_ket _ _
  unfold cnot
  rw [if_neg (by simp), splitAll_eq r hr (List.nodup_cons.mp hnd).2, pure_bind]
  exact h1

/-- the exchange of two registers -/
theorem sim_swap {ra rb : Reg} (hr : ra ≠ []) (hl : ra.length = rb.length) (ho : Own (root s) (cs.flatten ++ (ra ++ rb) ++ L)) :
    Does ang (swap ra rb) s (ra, rb) (cs.flatten ++ (ra ++ rb) ++ L)
      (fun x => ket (if ∀ d ∈ cs.flatten, x d = true then swapR ra rb x else x)) := by
  have hrb : rb ≠ [] := by rintro rfl; simp at hl; exact hr hl
  have hnd : (ra ++ rb).Nodup := (List.nodup_append.mp (List.nodup_append.mp ho.left).1).2.1
  obtain ⟨n1, n2, nd⟩ := List.nodup_append.mp hnd
  have hdis : ∀ d ∈ cs.flatten, d ∉ ra ++ rb := disj cs.flatten (ra ++ rb) L (root s) ho
  generalize hLL : cs.flatten ++ (ra ++ rb) ++ L = LL at *
  have step : ∀ (s' : β) (a b : ℕ), a ∈ ra → b ∈ rb → ctl s' = some cs → Own (root s') LL →
      Does ang (swapPair [a] [b]) s' ([a], [b]) LL
        (fun x => ket (if ∀ d ∈ cs.flatten, x d = true then swapQ a b x else x)) := by
    intro s' a b ha hb hs' ho'
    have hab : a ≠ b := nd a ha b hb
    obtain ⟨r1, r2, hr12⟩ := List.append_of_mem ha
    obtain ⟨r3, r4, hr34⟩ := List.append_of_mem hb
    have perm : LL.Perm (cs.flatten ++ [a, b] ++ (r1 ++ r2 ++ (r3 ++ r4) ++ L)) := by
      rw [← hLL, hr12, hr34]
      simp only [List.append_assoc]
      apply List.Perm.append_left
      simp only [List.cons_append, List.nil_append]
      refine List.perm_middle.trans (List.Perm.cons a ?_)
      simp only [← List.append_assoc]
      refine List.perm_middle.trans (List.Perm.cons b ?_)
      simp
    have perm2 : (cs.flatten ++ [a, b] ++ (r1 ++ r2 ++ (r3 ++ r4) ++ L)).Perm
        (cs.flatten ++ [b, a] ++ (r1 ++ r2 ++ (r3 ++ r4) ++ L)) :=
      List.Perm.append_right _ (List.Perm.append_left _ (List.Perm.swap b a []))
    have da : a ∉ cs.flatten := fun h => hdis a h (by simp [ha])
    have db : b ∉ cs.flatten := fun h => hdis b h (by simp [hb])
    have h1 := Does.bind (f := fun p : Reg × Reg => do
        let (rb, ra) ← cnot p.2 p.1
        cnot ra rb) (sim_cnot (ang := ang) (r := [b]) hs' (by simp) (ho'.perm perm)) fun s2 k2 o2 =>
      Does.bind (sim_cnot (ang := ang) (c := b) (r := [a]) (k2.trans hs') (by simp) (o2.perm perm2)) fun s3 k3 o3 =>
      sim_cnot (ang := ang) (c := a) (r := [b]) (k3.trans (k2.trans hs')) (by simp) (o3.perm perm2.symm)
    refine Does.congr (a := ([a], [b])) (L := cs.flatten ++ [a, b] ++ (r1 ++ r2 ++ (r3 ++ r4) ++ L))
      (U := fun x => lift (fun x => lift (fun x => ket (if (∀ d ∈ cs.flatten, x d = true) ∧ x a = true then flipAll [b] x else x))
        (ket (if (∀ d ∈ cs.flatten, x d = true) ∧ x b = true then flipAll [a] x else x)))
        (ket (if (∀ d ∈ cs.flatten, x d = true) ∧ x a = true then flipAll [b] x else x))) ?_ rfl perm.symm fun x _ => ?_
    · unfold swapPair
      rw [if_neg (by simp)]
      simp only [pure_bind]
      exact Does.unwrap h1
    · simp only [lift_ket, flipAll_single]
      by_cases h : ∀ d ∈ cs.flatten, x d = true
      · have hf : ∀ (q : ℕ) (y : Asg), q ∉ cs.flatten → (∀ d ∈ cs.flatten, y d = true) → ∀ d ∈ cs.flatten, flipQ q y d = true := by
          intro q y hq hy d hd
          rw [flipQ_of_ne]
          · exact hy d hd
          · rintro rfl; exact hq hd
        rw [if_pos h]
        have t1 : ((∀ d ∈ cs.flatten, x d = true) ∧ x a = true) = (x a = true) := propext (and_iff_right h)
        simp only [t1]
        generalize hy : (if x a = true then flipQ b x else x) = y
        have e1 : ∀ d ∈ cs.flatten, y d = true := by
          rw [← hy]; split
          · exact hf b x db h
          · exact h
        have t2 : ((∀ d ∈ cs.flatten, y d = true) ∧ y b = true) = (y b = true) := propext (and_iff_right e1)
        simp only [t2]
        generalize hz : (if y b = true then flipQ a y else y) = z
        have e2 : ∀ d ∈ cs.flatten, z d = true := by
          rw [← hz]; split
          · exact hf a y da e1
          · exact e1
        have t3 : ((∀ d ∈ cs.flatten, z d = true) ∧ z a = true) = (z a = true) := propext (and_iff_right e2)
        simp only [t3]
        subst hz hy
        congr 1
        funext q
        unfold swapQ flipQ
        by_cases h1 : q = a
        · subst h1
          cases h2 : x q <;> cases h3 : x b <;> simp [Function.update_apply, h2, h3, hab, hab.symm]
        · by_cases h4 : q = b
          · subst h4
            cases h2 : x a <;> cases h3 : x q <;> simp [Function.update_apply, h2, h3, hab, hab.symm]
          · cases h2 : x a <;> cases h3 : x b <;> simp [Function.update_apply, h2, h3, hab, hab.symm, h1, h4]
      · simp only [h, false_and, if_false]
  have many : ∀ (ta tb : Reg) (s' : β), ta.length = tb.length → (∀ q ∈ ta, q ∈ ra) → (∀ q ∈ tb, q ∈ rb) → ctl s' = some cs →
      Own (root s') LL →
      Does ang (((ta.map fun q => [q]).zip (tb.map fun q => [q])).mapM fun p => swapPair p.1 p.2) s'
        ((ta.map fun q => [q]).zip (tb.map fun q => [q])) LL
        (fun x => ket (if ∀ d ∈ cs.flatten, x d = true then swapR ta tb x else x)) := by
    intro ta
    induction ta with
    | nil =>
      intro tb s' _ _ _ _ ho'
      refine (Does.pure ho' _).congrU fun x _ => ?_
      have : swapR [] tb x = x := by cases tb <;> rfl
      rw [this, ite_self]
    | cons a ta ih =>
      intro tb s' hl' ha hb hs' ho'
      cases tb with
      | nil => simp at hl'
      | cons b tb =>
        rw [List.map_cons, List.map_cons, List.zip_cons_cons, List.mapM_cons]
        refine (Does.bind (step s' a b (ha a (by simp)) (hb b (by simp)) hs' ho') fun s2 k2 o2 =>
          Does.bind (f := fun l => pure (([a], [b]) :: l)) (ih tb s2 (by simpa using hl') (fun q hq => ha q (by simp [hq])) (fun q hq => hb q (by simp [hq]))
            (k2.trans hs') o2) fun s3 _ o3 => Does.pure o3 _).congrU fun x _ => ?_
        simp only [lift_ket]
        by_cases h : ∀ d ∈ cs.flatten, x d = true
        · have h2 : ∀ d ∈ cs.flatten, swapQ a b x d = true := by
            intro d hd
            have h3 : d ≠ a := by rintro rfl; exact hdis d hd (by simp [ha d (by simp)])
            have h4 : d ≠ b := by rintro rfl; exact hdis d hd (by simp [hb d (by simp)])
            unfold swapQ
            rw [if_neg h3, if_neg h4]
            exact h d hd
          rw [if_pos h, if_pos h2, if_pos h]
          rfl
        · rw [if_neg h, if_neg h, if_neg h]
  have e1 : ∀ {ta tb : Reg}, ta.length = tb.length → ((ta.map fun q => [q]).zip (tb.map fun q => [q])).map Prod.fst =
      (ta.map fun q => [q] : List Reg) := fun h => List.map_fst_zip (by simp; omega)
  have e2 : ∀ {ta tb : Reg}, ta.length = tb.length → ((ta.map fun q => [q]).zip (tb.map fun q => [q])).map Prod.snd =
      (tb.map fun q => [q] : List Reg) := fun h => List.map_snd_zip (by simp; omega)
  have h1 := Does.bind (f := fun ps => do
      let ma ← mergeRegisters (ps.map Prod.fst)
      let ra ← unwrapO ma
      let mb ← mergeRegisters (ps.map Prod.snd)
      let rb ← unwrapO mb
      pure (ra, rb)) (c := (ra, rb)) (L2 := LL) (V := ket) (many ra rb s hl (fun _ h => h) (fun _ h => h) hs ho) (by
    intro s2 _ o2
    rw [e1 hl, e2 hl, mergeSingles ra hr]
    simp only [pure_bind, unwrapO_some]
    rw [mergeSingles rb hrb]
    exact Does.pure o2 _)
  refine Does.congrU ?_ (U := fun x => lift ket (ket (if ∀ d ∈ cs.flatten, x d = true then swapR ra rb x else x)))
    fun x _ => lift_ket _ _
  unfold swap
  rw [if_pos hl, splitAll_eq ra hr n1, pure_bind, splitAll_eq rb hrb n2, pure_bind]
  exact h1

end

end

end Verif
