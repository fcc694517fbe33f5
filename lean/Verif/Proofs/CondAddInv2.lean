import Verif.Proofs.CondAddInv
import Verif.Proofs.AddMod2

/-! # `add_inv` inside conditions: the qubits, and when it subtracts -/

namespace Verif
open Classical Complex RegOps CircuitBuilder TempBuilder Rooted

/-! ## moving to other qubits -/

theorem emb_update (R : Reg) (hn : R.Nodup) (x y : Asg) (d : ℕ) (hd : d < R.length) (v : Bool) :
    emb R x (Function.update y d v) = Function.update (emb R x y) (R.getD d 0) v := by
  funext q
  by_cases hq : q = R.getD d 0
  · subst hq
    rw [emb_getD R hn _ _ d hd, Function.update_self, Function.update_self]
  · rw [Function.update_of_ne hq]
    unfold emb
    split
    · rename_i hm
      refine Function.update_of_ne (fun h => hq ?_) _ _
      rw [← h, List.getD_eq_getElem _ _ (List.idxOf_lt_length_of_mem hm), List.getElem_idxOf]
    · rfl

section
variable (R : Reg) (hn : R.Nodup) (x : Asg)
include hn

theorem emb_sum (y : Asg) {c a b : ℕ} (hc : c < R.length) (ha : a < R.length) (hb : b < R.length) :
    emb R x (sumMap c a b y) = sumMap (R.getD c 0) (R.getD a 0) (R.getD b 0) (emb R x y) := by
  unfold sumMap
  rw [emb_update R hn _ _ _ hb, emb_getD R hn _ _ _ hc, emb_getD R hn _ _ _ ha, emb_getD R hn _ _ _ hb]

theorem emb_carryW (y : Asg) {c a b d : ℕ} (hc : c < R.length) (ha : a < R.length) (hb : b < R.length) (hd : d < R.length) :
    embW R x (carryW c a b d y) = carryW (R.getD c 0) (R.getD a 0) (R.getD b 0) (R.getD d 0) (emb R x y) := by
  unfold carryW
  rw [emb_getD R hn _ _ _ hc, emb_getD R hn _ _ _ ha, emb_getD R hn _ _ _ hb]
  split
  · have := gate_emb R hn [d] (by simp) (by simpa using hd) wMat x (ket y)
    rw [embW_ket] at this
    exact this.symm
  · rw [embW_ket]

omit hn in
/-- naturality passes to `lift` -/
theorem emb_lift {U V : Asg → Wave} (h : ∀ y, embW R x (U y) = V (emb R x y)) (ψ : Wave) : embW R x (lift U ψ) = lift V (embW R x ψ) := by
  have : embW R x ∘ₗ lift U = lift V ∘ₗ embW R x := wave_ext fun y => by
    rw [LinearMap.comp_apply, LinearMap.comp_apply, lift_ket, embW_ket, lift_ket, h]
  exact LinearMap.congr_fun this ψ

theorem emb_subV (ct : Reg) (c0 : ℕ) (a b : Reg) (ha : a.length = ct.length + 1) (hb : b.length = ct.length + 2)
    (hl : ∀ i ∈ c0 :: ct ++ a ++ b, i < R.length) (y : Asg) :
    embW R x (subV (c0 :: ct) a b y) =
      subV ((c0 :: ct).map fun i => R.getD i 0) (a.map fun i => R.getD i 0) (b.map fun i => R.getD i 0) (emb R x y) := by
  refine add_induct (P := fun c a b => (∀ i ∈ c ++ a ++ b, i < R.length) → ∀ y, embW R x (subV c a b y) =
    subV (c.map fun i => R.getD i 0) (a.map fun i => R.getD i 0) (b.map fun i => R.getD i 0) (emb R x y)) ?_ ?_ ct c0 a b ha hb hl y
  · intro c a b b' hl y
    simp only [List.map_cons, List.map_nil, subV_one]
    rw [emb_carryW R hn x _ (hl c (by simp)) (hl a (by simp)) (hl b (by simp)) (hl b' (by simp)),
      emb_sum R hn x _ (hl c (by simp)) (hl a (by simp)) (hl b (by simp))]
  · intro c c' cs a as b bs ih hl y
    have h1 := hl c (by simp)
    have h2 := hl c' (by simp)
    have h3 := hl a (by simp)
    have h4 := hl b (by simp)
    simp only [List.map_cons, subV_cons]
    have ih' := ih fun i hi => hl i (by
      simp only [List.mem_append, List.mem_cons] at hi ⊢
      tauto)
    simp only [List.map_cons] at ih'
    rw [emb_lift R x (fun y => emb_carryW R hn x y h1 h3 h4 h2), emb_lift R x ih', emb_carryW R hn x _ h1 h3 h4 h2, emb_sum R hn x _ h1 h3 h4]

end

theorem Moves.addInv {β : Type} [Recursive β] [Rooted β] [SubSim β] {cs : List Reg} (hc : cs ≠ []) (c0 : ℕ) (ct a b : Reg)
    (ha : a.length = ct.length + 1) (hb : b.length = ct.length + 2) :
    Moves rotAngle cs (Arith.addInv [c0 :: ct, a, b] : M β _) [c0 :: ct, a, b] [c0 :: ct, a, b].flatten (subV (c0 :: ct) a b) where
  keeps x := (subV_keeps ct c0 a b ha hb x).mono fun y hy q hq => by
    simp only [List.flatten_cons, List.flatten_nil, List.append_nil, List.mem_append, List.mem_cons, not_or] at hq
    exact hy q hq.1.2 hq.2.2
  does s L hs ho := by
    have hn : [c0 :: ct, a, b].flatten.Nodup := (List.nodup_append.mp (List.nodup_append.mp ho.left).1).2.1
    have hr : ∀ r ∈ [c0 :: ct, a, b], r ≠ [] := by
      intro r hr
      simp only [List.mem_cons, List.not_mem_nil, or_false] at hr
      rcases hr with rfl | rfl | rfl
      · simp
      · rintro rfl; simp at ha
      · rintro rfl; simp at hb
    obtain ⟨n, hnn⟩ : ∃ n, n = ct.length := ⟨_, rfl⟩
    have hrg : ranges 0 ([c0 :: ct, a, b].map List.length) = [0 :: List.range' 1 n, List.range' (n + 1) (n + 1), List.range' (n + 1 + (n + 1)) (n + 2)] := by
      simp only [List.map_cons, List.map_nil, ranges, List.length_cons, ha, hb, ← hnn, List.range'_succ, Nat.zero_add]
    have hfl : [c0 :: ct, a, b].flatten.length = 3 * n + 4 := by
      simp only [List.flatten_cons, List.flatten_nil, List.append_nil, List.length_append, List.length_cons, ha, hb, ← hnn]; omega
    have hrf : (ranges 0 ([c0 :: ct, a, b].map List.length)).flatten = List.range (3 * n + 4) := by
      rw [ranges_flatten, ← List.length_flatten, hfl, List.range_eq_range']
    have hcat : ((0 :: List.range' 1 n) ++ List.range' (n + 1) (n + 1) ++ List.range' (n + 1 + (n + 1)) (n + 2)) = List.range (3 * n + 4) := by
      rw [← hrf, hrg]; simp
    have hnd : ((0 :: List.range' 1 n) ++ List.range' (n + 1) (n + 1) ++ List.range' (n + 1 + (n + 1)) (n + 2)).Nodup := by
      rw [hcat]; exact List.nodup_range
    have hl1 : (List.range' (n + 1) (n + 1)).length = (List.range' 1 n).length + 1 := by simp
    have hl2 : (List.range' (n + 1 + (n + 1)) (n + 2)).length = (List.range' 1 n).length + 2 := by simp
    obtain ⟨seg, g1, g2, g3, g4⟩ := Repl.add 0 (List.range' 1 n) (List.range' (n + 1) (n + 1)) (List.range' (n + 1 + (n + 1)) (n + 2)) hl1 hl2 hnd
    obtain ⟨p, p1, p2, p3, p4⟩ := invertSub_condable seg g2
    have hpos : ∀ k ∈ [c0 :: ct, a, b].map List.length, 0 < k := by
      intro k hk
      obtain ⟨r, hr', rfl⟩ := List.mem_map.mp hk
      exact List.length_pos_of_ne_nil (hr r hr')
    have hbs : buildSub ([c0 :: ct, a, b].map List.length) (Arith.add (β := LocalBuilder)) = .ok seg := by
      refine buildSub_ok (a := [0 :: List.range' 1 n, List.range' (n + 1) (n + 1), List.range' (n + 1 + (n + 1)) (n + 2)])
        (b := ⟨[] ++ seg, ([c0 :: ct, a, b].map List.length).sum, [], 0⟩) hpos ?_
      rw [hrg]
      exact g1 ⟨[], _, [], 0⟩
    have hm : maxIndex p = some (3 * n + 3) := by
      rw [maxIndex_congr p seg p3, maxIndex_iff]
      constructor
      · rw [g3, hcat, List.mem_range]; omega
      · intro e he q hq
        have := (g3 q).mp ⟨e, he, hq⟩
        rw [hcat, List.mem_range] at this
        omega
    have h := applySub_cond (s := s) (L := L) (r := [c0 :: ct, a, b].flatten) hs hc (by simp) hm (by rw [hfl]) p2 ho
      (subV (0 :: List.range' 1 n) (List.range' (n + 1) (n + 1)) (List.range' (n + 1 + (n + 1)) (n + 2))) (fun z hz => ⟨by
        have hA : runW rotAngle (objects condObj seg) = lift (addV (0 :: List.range' 1 n) (List.range' (n + 1) (n + 1))
            (List.range' (n + 1 + (n + 1)) (n + 2))) := wave_ext fun y => by rw [g4, lift_ket]
        have := p4 rotAngle (subV (0 :: List.range' 1 n) (List.range' (n + 1) (n + 1)) (List.range' (n + 1 + (n + 1)) (n + 2)) z)
        rwa [hA, addV_subV _ _ _ _ hl1 hl2 hnd] at this, by
        refine (subV_keeps _ _ _ _ hl1 hl2 z).mono fun y hy i hi => ?_
        rw [hfl] at hi hz
        rw [hy i (by simp only [List.mem_range'_1]; omega) (by simp only [List.mem_range'_1]; omega)]
        exact hz i hi⟩)
    obtain ⟨s', h1, h2⟩ := h
    have := (inverter_of (rs := [c0 :: ct, a, b]) (by simp) hr hn hbs p1 (s := s) (s' := s') h1).2
    refine Does.congrU ⟨s', this, h2⟩ fun x _ => ?_
    split
    · rw [moveW_eq, emb_subV _ hn _ _ _ _ _ hl1 hl2 (fun i hi => by rw [hcat, List.mem_range] at hi; rw [hfl]; exact hi), emb_pull]
      have e := ranges_getD [c0 :: ct, a, b]
      rw [hrg] at e
      simp only [List.map_cons, List.map_nil, List.cons.injEq, and_true] at e
      obtain ⟨⟨e1, e2⟩, e3, e4⟩ := e
      rw [List.map_cons, e1, e2, e3, e4]
    · rfl

/-! ## when no carry occurs -/

/-- no carry occurs when `a` and the carry `c` are added to `b`, the other carries being those found in `x` -/
def NoCarry : Reg → Reg → Reg → Asg → Prop
  | [c], [a], [b, _], x => maj (x c) (x a) (x b) = false
  | c :: c' :: cs, a :: as, b :: bs, x => maj (x c) (x a) (x b) = false ∧ NoCarry (c' :: cs) as bs x
  | _, _, _, _ => True

theorem noCarry_cons (c c' a b : ℕ) (cs as bs : Reg) (x : Asg) : NoCarry (c :: c' :: cs) (a :: as) (b :: bs) x ↔
    maj (x c) (x a) (x b) = false ∧ NoCarry (c' :: cs) as bs x := Iff.rfl

theorem carryW_off {c a b d : ℕ} {x : Asg} (h : maj (x c) (x a) (x b) = false) : carryW c a b d x = ket x := if_neg (by simp [h])

theorem carryW_on {c a b d : ℕ} {x : Asg} (h : maj (x c) (x a) (x b) = true) : carryW c a b d x = gateW [d] wMat (ket x) := if_pos h

theorem carryMap_off {c a b d : ℕ} {x : Asg} (h : maj (x c) (x a) (x b) = false) : carryMap c a b d x = x := by
  unfold carryMap
  rw [h, Bool.xor_false, Function.update_eq_self]

theorem carryW_both {c a b d : ℕ} {x : Asg} (h : maj (x c) (x a) (x b) = true) (v : Bool) : carryW c a b d x (setQ d v x) ≠ 0 := by
  rw [carryW_on h]; exact w_both d x v

theorem carryW_sub (c a b d : ℕ) (hn : [c, a, b, d].Nodup) (ψ : Wave) : lift (carryW c a b d) (lift (carryW c a b d) ψ) = ψ :=
  lift_lift_id (carryW_carryW c a b d hn) ψ

/-- what the adder keeps apart -/
theorem add_apart {c c' a b : ℕ} {cs as bs : List ℕ} (hn : (c :: c' :: cs ++ a :: as ++ b :: bs).Nodup) :
    (c ∉ cs ∧ c ∉ bs ∧ c ≠ c' ∧ c ≠ b) ∧ (a ∉ cs ∧ a ∉ bs ∧ a ≠ c' ∧ a ≠ b) ∧ (b ∉ cs ∧ b ∉ bs ∧ b ≠ c') ∧ c' ∉ cs ∧ c' ∉ bs ∧ c' ∉ as ∧
    (b ∉ c' :: cs ∧ b ∉ as) := by
  simp only [List.nodup_append, List.nodup_cons, List.mem_cons, List.mem_append] at hn ⊢
  grind

/-- the lowest bit of the sum is right whatever the carries do -/
theorem addV_low (ct : Reg) (c0 a0 b0 : ℕ) (as bs : Reg) (ha : as.length = ct.length) (hb : bs.length = ct.length + 1)
    (hn : (c0 :: ct ++ a0 :: as ++ b0 :: bs).Nodup) (x : Asg) :
    On {z | z b0 = xor (x a0) (xor (x b0) (x c0))} (addV (c0 :: ct) (a0 :: as) (b0 :: bs) x) := by
  cases ct with
  | nil =>
    obtain rfl := List.length_eq_zero_iff.mp ha
    obtain ⟨b1, rfl⟩ := List.length_eq_one_iff.mp hb
    rw [addV_one]
    have h4 : [c0, a0, b0, b1].Nodup := by simpa using hn
    simp only [List.nodup_cons, List.mem_cons, List.not_mem_nil, or_false, not_or] at h4
    refine (carryW_keeps c0 a0 b0 b1 x).map _ fun y hy => ?_
    rw [lift_ket]
    refine On.ket ?_
    simp only [Set.mem_setOf_eq, sumMap, Function.update_self]
    rw [hy a0 h4.2.1.2, hy b0 h4.2.2.1, hy c0 h4.1.2.2]
  | cons c1 ct =>
    obtain ⟨⟨k1, k2, k3, _⟩, ⟨k4, k5, k6, _⟩, ⟨k7, k8, k9⟩, _⟩ := add_apart hn
    rw [addV_cons]
    refine On.map (S := {z | z c0 = x c0 ∧ z a0 = x a0 ∧ z b0 = x b0}) ?_ _ fun y hy => ?_
    · refine On.map (S := {z | z c0 = x c0 ∧ z a0 = x a0 ∧ z b0 = x b0}) ?_ _ fun y hy => ?_
      · refine On.map (S := {z | z c0 = x c0 ∧ z a0 = x a0 ∧ z b0 = x b0}) ?_ _ fun y hy => ?_
        · exact (carryW_keeps c0 a0 b0 c1 x).mono fun z hz => ⟨hz _ k3, hz _ k6, hz _ k9⟩
        · rw [lift_ket]
          exact (addV_keeps ct c1 as bs (by simpa using ha) (by simpa using hb) y).mono fun z hz =>
            ⟨(hz _ k1 k2).trans hy.1, (hz _ k4 k5).trans hy.2.1, (hz _ k7 k8).trans hy.2.2⟩
      · rw [lift_ket]
        exact (carryW_keeps c0 a0 b0 c1 y).mono fun z hz => ⟨(hz _ k3).trans hy.1, (hz _ k6).trans hy.2.1, (hz _ k9).trans hy.2.2⟩
    · rw [lift_ket]
      refine On.ket ?_
      simp only [Set.mem_setOf_eq, sumMap, Function.update_self]
      rw [hy.1, hy.2.1, hy.2.2]

section
variable (ct : Reg) (c0 : ℕ) (a b : Reg) (ha : a.length = ct.length + 1) (hb : b.length = ct.length + 2)
  (hn : (c0 :: ct ++ a ++ b).Nodup)
include ha hb hn

/-- without carries, the circuit with all objects replaced adds -/
theorem addV_nocarry (x : Asg) (h : NoCarry (c0 :: ct) a b x) : addV (c0 :: ct) a b x = ket (addMap (c0 :: ct) a b x) := by
  refine add_induct (P := fun c a b => (c ++ a ++ b).Nodup → ∀ x, NoCarry c a b x → addV c a b x = ket (addMap c a b x)) ?_ ?_ ct c0 a b ha hb hn x h
  · intro c a b b' hn x h
    rw [addV_one, carryW_off h, lift_ket]
    unfold addMap
    rw [carryMap_off h]
  · intro c c' cs a as b bs ih hn x h
    obtain ⟨⟨k1, k2, k3, _⟩, ⟨k4, k5, k6, _⟩, ⟨k7, k8, k9⟩, _⟩ := add_apart hn
    have hk := fun q => addMap_keeps (c' :: cs) as bs x q
    have hm : maj (addMap (c' :: cs) as bs x c) (addMap (c' :: cs) as bs x a) (addMap (c' :: cs) as bs x b) = false := by
      rw [hk c k1 k2, hk a k4 k5, hk b k7 k8]; exact h.1
    rw [addV_cons, carryW_off h.1, lift_ket, ih (add_nodup hn).2 x h.2, lift_ket, carryW_off hm, lift_ket]
    conv_rhs => unfold addMap
    rw [carryMap_off h.1, carryMap_off hm]

/-- the circuit with all objects replaced gives a basis state only without carries -/
theorem addV_needs (x y : Asg) (h : addV (c0 :: ct) a b x = ket y) : NoCarry (c0 :: ct) a b x := by
  induction ct generalizing c0 a b y with
  | nil =>
    obtain ⟨a0, rfl⟩ := List.length_eq_one_iff.mp ha
    obtain ⟨b0, b1, rfl⟩ := List.length_eq_two.mp hb
    have h4 : [c0, a0, b0, b1].Nodup := by simpa using hn
    rw [addV_one] at h
    have h1 := lift_inj_ket (sumMap_sumMap c0 a0 b0 (h4.sublist (by simp))) h
    show maj (x c0) (x a0) (x b0) = false
    by_contra hm
    have hm : maj (x c0) (x a0) (x b0) = true := by simpa using hm
    have g := carryW_both (d := b1) hm
    rw [h1] at g
    have e : ∀ v, setQ b1 v x = sumMap c0 a0 b0 y := fun v => by
      by_contra hne
      exact g v (by unfold ket; rw [Finsupp.single_apply, if_neg (Ne.symm hne)])
    have := congrFun ((e true).trans (e false).symm) b1
    simp [setQ] at this
  | cons c1 ct ih =>
    obtain ⟨a0, as, rfl⟩ := List.exists_cons_of_length_pos (l := a) (by omega)
    obtain ⟨b0, bs, rfl⟩ := List.exists_cons_of_length_pos (l := b) (by omega)
    have ha' : as.length = ct.length + 1 := by simpa using ha
    have hb' : bs.length = ct.length + 2 := by simpa using hb
    obtain ⟨⟨k1, k2, k3, k0⟩, ⟨k4, k5, k6, k0'⟩, ⟨k7, k8, k9⟩, k10, k11, k12, _⟩ := add_apart hn
    obtain ⟨n1, n2⟩ := add_nodup hn
    rw [addV_cons] at h
    have h1 := lift_inj_ket (sumMap_sumMap c0 a0 b0 (n1.sublist (by simp))) h
    generalize sumMap c0 a0 b0 y = y1 at h1
    have h2 : lift (addV (c1 :: ct) as bs) (carryW c0 a0 b0 c1 x) = carryW c0 a0 b0 c1 y1 := by
      have := congrArg (lift (carryW c0 a0 b0 c1)) h1
      rwa [carryW_sub _ _ _ _ n1, lift_ket] at this
    have hon : On {z | z c0 = x c0 ∧ z a0 = x a0 ∧ z b0 = x b0} (carryW c0 a0 b0 c1 y1) := by
      rw [← h2]
      refine On.map (S := {z | z c0 = x c0 ∧ z a0 = x a0 ∧ z b0 = x b0})
        ((carryW_keeps c0 a0 b0 c1 x).mono fun z hz => ⟨hz _ k3, hz _ k6, hz _ k9⟩) _ fun z hz => ?_
      rw [lift_ket]
      exact (addV_keeps ct c1 as bs ha' hb' z).mono fun w hw =>
        ⟨(hw _ k1 k2).trans hz.1, (hw _ k4 k5).trans hz.2.1, (hw _ k7 k8).trans hz.2.2⟩
    have hy : y1 c0 = x c0 ∧ y1 a0 = x a0 ∧ y1 b0 = x b0 := by
      by_cases hm : maj (y1 c0) (y1 a0) (y1 b0) = true
      · have := on_iff.mp hon _ (Finsupp.mem_support_iff.mpr (carryW_both (d := c1) hm true))
        simp only [Set.mem_setOf_eq, setQ_ne k3 _ _, setQ_ne k6 _ _, setQ_ne k9 _ _] at this
        exact this
      · rw [carryW_off (by simpa using hm)] at hon
        exact on_ket hon
    by_cases hm : maj (x c0) (x a0) (x b0) = true
    · exfalso
      obtain ⟨a1, as, rfl⟩ := List.exists_cons_of_length_pos (l := as) (by omega)
      obtain ⟨b1, bs, rfl⟩ := List.exists_cons_of_length_pos (l := bs) (by omega)
      have q1 : a1 ≠ c1 := fun e => k12 (by simp [e])
      have q2 : b1 ≠ c1 := fun e => k11 (by simp [e])
      have hlow : On {z | z b1 = xor (x a1) (xor (x b1) (z c1))} (carryW c0 a0 b0 c1 y1) := by
        rw [← h2]
        refine On.map (S := {z | ∀ q, q ≠ c1 → z q = x q}) (carryW_keeps c0 a0 b0 c1 x) _ fun z hz => ?_
        rw [lift_ket]
        refine on_iff.mpr fun w hw => ?_
        have g1 := on_iff.mp (addV_low ct c1 a1 b1 as bs (by simpa using ha') (by simpa using hb') n2 z) w hw
        have g2 := on_iff.mp (addV_keeps ct c1 (a1 :: as) (b1 :: bs) ha' hb' z) w hw c1 k10 k11
        simp only [Set.mem_setOf_eq] at g1 ⊢
        rw [g1, g2, hz a1 q1, hz b1 q2]
      have hm' : maj (y1 c0) (y1 a0) (y1 b0) = true := by rw [hy.1, hy.2.1, hy.2.2, hm]
      have e1 := on_iff.mp hlow _ (Finsupp.mem_support_iff.mpr (carryW_both (d := c1) hm' true))
      have e0 := on_iff.mp hlow _ (Finsupp.mem_support_iff.mpr (carryW_both (d := c1) hm' false))
      simp only [Set.mem_setOf_eq, setQ_ne q2 _ _, setQ_eq] at e1 e0
      rw [e1] at e0
      revert e0
      cases x a1 <;> cases x b1 <;> simp
    · have hm0 : maj (x c0) (x a0) (x b0) = false := by simpa using hm
      have hm1 : maj (y1 c0) (y1 a0) (y1 b0) = false := by rw [hy.1, hy.2.1, hy.2.2, hm0]
      rw [carryW_off hm0, carryW_off hm1, lift_ket] at h2
      exact ⟨hm0, ih c1 as bs ha' hb' n2 y1 h2⟩

/-- inside conditions the adder with the top carry done and the one with all objects replaced agree only without carries -/
theorem addW_addV (x : Asg) (h : addW (c0 :: ct) a b x = addV (c0 :: ct) a b x) : NoCarry (c0 :: ct) a b x := by
  induction ct generalizing c0 a b with
  | nil =>
    obtain ⟨a0, rfl⟩ := List.length_eq_one_iff.mp ha
    obtain ⟨b0, b1, rfl⟩ := List.length_eq_two.mp hb
    have h4 : [c0, a0, b0, b1].Nodup := by simpa using hn
    refine addV_needs [] c0 [a0] [b0, b1] ha hb hn x (sumMap c0 a0 b0 (carryMap c0 a0 b0 b1 x)) ?_
    rw [← h]; rfl
  | cons c1 ct ih =>
    obtain ⟨a0, as, rfl⟩ := List.exists_cons_of_length_pos (l := a) (by omega)
    obtain ⟨b0, bs, rfl⟩ := List.exists_cons_of_length_pos (l := b) (by omega)
    have ha' : as.length = ct.length + 1 := by simpa using ha
    have hb' : bs.length = ct.length + 2 := by simpa using hb
    obtain ⟨_, _, _, k10, k11, k12, _⟩ := add_apart hn
    obtain ⟨n1, n2⟩ := add_nodup hn
    rw [addV_cons] at h
    unfold addW at h
    have h1 := congrArg (lift fun y => ket (sumMap c0 a0 b0 y)) h
    rw [lift_lift_id (sumK c0 a0 b0 (n1.sublist (by simp))), lift_lift_id (sumK c0 a0 b0 (n1.sublist (by simp)))] at h1
    have h2 := congrArg (lift (carryW c0 a0 b0 c1)) h1
    rw [carryW_sub _ _ _ _ n1, carryW_sub _ _ _ _ n1] at h2
    by_cases hm : maj (x c0) (x a0) (x b0) = true
    · exfalso
      have h3 := congrArg (lift (subV (c1 :: ct) as bs)) h2
      rw [lift_lift_id (subV_addV ct c1 as bs ha' hb' n2)] at h3
      have hon : On {z | z c1 = !x c1} (carryW c0 a0 b0 c1 x) := by
        rw [← h3]
        refine On.map (S := {z | z c1 = !x c1}) ((addW_keeps (c1 :: ct) as bs _).mono fun z hz => ?_) _ fun z hz => ?_
        · simp only [Set.mem_setOf_eq]
          rw [hz c1 (by simpa using k10) k11, carryMap, Function.update_self, hm, Bool.xor_true]
        · rw [lift_ket]
          exact (subV_keeps ct c1 as bs ha' hb' z).mono fun w hw => (hw c1 k10 k11).trans hz
      have := on_iff.mp hon _ (Finsupp.mem_support_iff.mpr (carryW_both (d := c1) hm (x c1)))
      simp only [Set.mem_setOf_eq, setQ_eq] at this
      revert this
      cases x c1 <;> simp
    · have hm0 : maj (x c0) (x a0) (x b0) = false := by simpa using hm
      rw [carryW_off hm0, carryMap_off hm0, lift_ket] at h2
      exact ⟨hm0, ih c1 as bs ha' hb' n2 h2⟩

/-- the inverse circuit with all objects replaced gives a basis state exactly if the addition it undoes has no carry -/
theorem subV_iff (x y : Asg) : subV (c0 :: ct) a b x = ket y ↔ y = subMap (c0 :: ct) a b x ∧ NoCarry (c0 :: ct) a b y := by
  constructor
  · intro h
    have h1 : addV (c0 :: ct) a b y = ket x := by
      have := addV_subV ct c0 a b ha hb hn x
      rwa [h, lift_ket] at this
    have h2 := addV_needs ct c0 a b ha hb hn y x h1
    rw [addV_nocarry ct c0 a b ha hb hn y h2] at h1
    have h3 : addMap (c0 :: ct) a b y = x := Finsupp.single_left_injective one_ne_zero h1
    exact ⟨by rw [← h3, sub_add _ _ _ hn], h2⟩
  · rintro ⟨h1, h2⟩
    have h3 := subV_addV ct c0 a b ha hb hn y
    rw [addV_nocarry ct c0 a b ha hb hn y h2, lift_ket, h1, add_sub _ _ _ hn] at h3
    rw [h3, ← h1]

/-- from a clean start: no carry exactly if every bit of `a` is one of `b` -/
theorem sub_noCarry (x : Asg) (hx : ∀ q ∈ c0 :: ct, x q = false) :
    NoCarry (c0 :: ct) a b (subMap (c0 :: ct) a b x) ↔ ∀ i < a.length, x (a.getD i 0) = true → x (b.getD i 0) = true := by
  induction ct generalizing c0 a b x with
  | nil =>
    obtain ⟨a0, rfl⟩ := List.length_eq_one_iff.mp ha
    obtain ⟨b0, b1, rfl⟩ := List.length_eq_two.mp hb
    have h4 : [c0, a0, b0, b1].Nodup := by simpa using hn
    simp only [List.nodup_cons, List.mem_cons, List.not_mem_nil, or_false, not_or] at h4
    have h0 : x c0 = false := hx c0 (by simp)
    show maj (subMap [c0] [a0] [b0, b1] x c0) (subMap [c0] [a0] [b0, b1] x a0) (subMap [c0] [a0] [b0, b1] x b0) = false ↔ _
    unfold subMap
    rw [carryMap_keeps _ _ _ _ _ _ h4.1.2.2, carryMap_keeps _ _ _ _ _ _ h4.2.1.2, carryMap_keeps _ _ _ _ _ _ h4.2.2.1,
      sumMap_keeps _ _ _ _ _ h4.1.2.1, sumMap_keeps _ _ _ _ _ h4.2.1.1, sumMap, Function.update_self, h0]
    simp only [List.length_cons, List.length_nil, zero_add, Nat.lt_one_iff, forall_eq, List.getD_cons_zero]
    cases x a0 <;> cases x b0 <;> simp [maj]
  | cons c1 ct ih =>
    obtain ⟨a0, as, rfl⟩ := List.exists_cons_of_length_pos (l := a) (by omega)
    obtain ⟨b0, bs, rfl⟩ := List.exists_cons_of_length_pos (l := b) (by omega)
    have ha' : as.length = ct.length + 1 := by simpa using ha
    have hb' : bs.length = ct.length + 2 := by simpa using hb
    obtain ⟨⟨k1, k2, k3, k0⟩, ⟨k4, k5, k6, k0'⟩, ⟨k7, k8, k9⟩, k10, k11, k12, k13, k14⟩ := add_apart hn
    obtain ⟨n1, n2⟩ := add_nodup hn
    have h0 : x c0 = false := hx c0 (by simp)
    have e0 : sumMap c0 a0 b0 x c0 = false := by rw [sumMap_keeps _ _ _ _ _ k0, h0]
    have ea : sumMap c0 a0 b0 x a0 = x a0 := sumMap_keeps _ _ _ _ _ k0'
    have eb : sumMap c0 a0 b0 x b0 = xor (x a0) (x b0) := by rw [sumMap, Function.update_self, h0, Bool.xor_false]
    have hs : ∀ z, subMap (c1 :: ct) as bs z c0 = z c0 ∧ subMap (c1 :: ct) as bs z a0 = z a0 ∧ subMap (c1 :: ct) as bs z b0 = z b0 := fun z =>
      ⟨subMap_keeps _ _ _ z _ k1 k2, subMap_keeps _ _ _ z _ k4 k5, subMap_keeps _ _ _ z _ k7 k8⟩
    have ih' := ih c1 as bs ha' hb' n2 (sumMap c0 a0 b0 x) (fun q hq => by
      rw [sumMap_keeps c0 a0 b0 x q (fun e => k13 (by rw [← e]; exact hq)), hx q (by simp only [List.mem_cons] at hq ⊢; tauto)])
    have hr : (∀ i < as.length, sumMap c0 a0 b0 x (as.getD i 0) = true → sumMap c0 a0 b0 x (bs.getD i 0) = true) ↔
        ∀ i < as.length, x (as.getD i 0) = true → x (bs.getD i 0) = true := by
      refine forall_congr' fun i => imp_congr_right fun hi => ?_
      rw [sumMap_keeps _ _ _ _ _ (fun e => k14 (by rw [← e, List.getD_eq_getElem _ _ hi]; exact List.getElem_mem _)),
        sumMap_keeps _ _ _ _ _ (fun e => k8 (by rw [← e, List.getD_eq_getElem _ _ (by omega)]; exact List.getElem_mem _))]
    rw [hr] at ih'
    have hall : (∀ i < (a0 :: as).length, x ((a0 :: as).getD i 0) = true → x ((b0 :: bs).getD i 0) = true) ↔
        (x a0 = true → x b0 = true) ∧ ∀ i < as.length, x (as.getD i 0) = true → x (bs.getD i 0) = true := by
      constructor
      · intro h
        exact ⟨h 0 (by simp), fun i hi => by simpa using h (i + 1) (by simpa using hi)⟩
      · rintro ⟨h1, h2⟩ (_ | i) hi
        · simpa using h1
        · simpa using h2 i (by simpa using hi)
    rw [hall, noCarry_cons]
    have hm : maj (sumMap c0 a0 b0 x c0) (sumMap c0 a0 b0 x a0) (sumMap c0 a0 b0 x b0) = false ↔ (x a0 = true → x b0 = true) := by
      rw [e0, ea, eb]
      cases x a0 <;> cases x b0 <;> simp [maj]
    have hsub : subMap (c0 :: c1 :: ct) (a0 :: as) (b0 :: bs) x =
        carryMap c0 a0 b0 c1 (subMap (c1 :: ct) as bs (carryMap c0 a0 b0 c1 (sumMap c0 a0 b0 x))) := rfl
    have hhead : maj (subMap (c0 :: c1 :: ct) (a0 :: as) (b0 :: bs) x c0) (subMap (c0 :: c1 :: ct) (a0 :: as) (b0 :: bs) x a0)
        (subMap (c0 :: c1 :: ct) (a0 :: as) (b0 :: bs) x b0) = maj (sumMap c0 a0 b0 x c0) (sumMap c0 a0 b0 x a0) (sumMap c0 a0 b0 x b0) := by
      rw [hsub]
      simp only [carryMap_keeps _ _ _ _ _ _ k3, carryMap_keeps _ _ _ _ _ _ k6, carryMap_keeps _ _ _ _ _ _ k9, hs]
    rw [hhead, hm]
    refine and_congr_right fun h1 => ?_
    have h2 := hm.mpr h1
    rw [hsub, carryMap_off h2, carryMap_off (by rw [(hs _).1, (hs _).2.1, (hs _).2.2]; exact h2), ih']

end

end Verif
