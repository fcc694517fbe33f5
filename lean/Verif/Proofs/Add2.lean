import Verif.Proofs.Add

/-! # The ripple adder: the recursion -/

namespace Verif
open Classical RegOps CircuitBuilder Rooted

variable {ang : Rot → ℝ}

theorem sumMap_keeps (c a b : ℕ) (x : Asg) (q : ℕ) (hq : q ≠ b) : sumMap c a b x q = x q := Function.update_of_ne hq _ _

theorem carryMap_keeps (c a b d : ℕ) (x : Asg) (q : ℕ) (hq : q ≠ d) : carryMap c a b d x q = x q := Function.update_of_ne hq _ _

/-- only `b` and the carries change -/
theorem addMap_keeps (c a b : Reg) (x : Asg) (q : ℕ) (hc : q ∉ c.tail) (hb : q ∉ b) : addMap c a b x q = x q := by
  fun_induction addMap c a b x with
  | case1 c a b b' x =>
    simp only [List.mem_cons, List.not_mem_nil, or_false, not_or] at hb
    rw [sumMap_keeps _ _ _ _ _ hb.1, carryMap_keeps _ _ _ _ _ _ hb.2]
  | case2 c c' cs a as b bs x ih =>
    simp only [List.tail_cons, List.mem_cons, not_or] at hb hc
    rw [sumMap_keeps _ _ _ _ _ hb.1, carryMap_keeps _ _ _ _ _ _ hc.1, ih (by simpa using hc.2) hb.2, carryMap_keeps _ _ _ _ _ _ hc.1]
  | case3 => rfl

theorem subMap_keeps (c a b : Reg) (x : Asg) (q : ℕ) (hc : q ∉ c.tail) (hb : q ∉ b) : subMap c a b x q = x q := by
  fun_induction subMap c a b x with
  | case1 c a b b' x =>
    simp only [List.mem_cons, List.not_mem_nil, or_false, not_or] at hb
    rw [carryMap_keeps _ _ _ _ _ _ hb.2, sumMap_keeps _ _ _ _ _ hb.1]
  | case2 c c' cs a as b bs x ih =>
    simp only [List.tail_cons, List.mem_cons, not_or] at hb hc
    rw [carryMap_keeps _ _ _ _ _ _ hc.1, ih (by simpa using hc.2) hb.2, carryMap_keeps _ _ _ _ _ _ hc.1, sumMap_keeps _ _ _ _ _ hb.1]
  | case3 => rfl

theorem add_nodup {c c' a b : ℕ} {cs as bs : List ℕ} (hn : (c :: c' :: cs ++ a :: as ++ b :: bs).Nodup) :
    [c, a, b, c'].Nodup ∧ (c' :: cs ++ as ++ bs).Nodup := by
  constructor
  · simp only [List.nodup_append, List.nodup_cons, List.mem_cons, List.mem_append] at hn ⊢
    grind
  · refine hn.sublist ?_
    simp only [List.cons_append, List.append_assoc]
    exact List.Sublist.cons c (List.Sublist.cons_cons c' ((List.Sublist.refl cs).append
      (List.Sublist.cons a ((List.Sublist.refl as).append (List.Sublist.cons b (List.Sublist.refl bs))))))

theorem add_sub (c a b : Reg) (hn : (c ++ a ++ b).Nodup) (x : Asg) : addMap c a b (subMap c a b x) = x := by
  fun_induction subMap c a b x with
  | case1 c a b b' x =>
    unfold addMap
    rw [carryMap_carryMap c a b b' (by simpa using hn), sumMap_sumMap]
    have : [c, a, b, b'].Nodup := by simpa using hn
    exact this.sublist (by simp)
  | case2 c c' cs a as b bs x ih =>
    have h1 := add_nodup hn
    unfold addMap
    rw [carryMap_carryMap c a b c' h1.1, ih h1.2, carryMap_carryMap c a b c' h1.1, sumMap_sumMap]
    have := h1.1
    exact this.sublist (by simp)
  | case3 c a b x h2 h3 =>
    unfold addMap
    split
    · exact absurd rfl (h2 _ _ _ _ rfl rfl)
    · exact absurd rfl (h3 _ _ _ _ _ _ _ rfl rfl)
    · rfl

theorem sub_add (c a b : Reg) (hn : (c ++ a ++ b).Nodup) (x : Asg) : subMap c a b (addMap c a b x) = x := by
  fun_induction addMap c a b x with
  | case1 c a b b' x =>
    have : [c, a, b, b'].Nodup := by simpa using hn
    unfold subMap
    rw [sumMap_sumMap c a b (this.sublist (by simp)), carryMap_carryMap c a b b' this]
  | case2 c c' cs a as b bs x ih =>
    have h1 := add_nodup hn
    unfold subMap
    rw [sumMap_sumMap c a b (h1.1.sublist (by simp)), carryMap_carryMap c a b c' h1.1, ih h1.2, carryMap_carryMap c a b c' h1.1]
  | case3 c a b x h2 h3 =>
    unfold subMap
    split
    · exact absurd rfl (h2 _ _ _ _ rfl rfl)
    · exact absurd rfl (h3 _ _ _ _ _ _ _ rfl rfl)
    · rfl

/-! ## values -/

theorem bits_add (a b c : Bool) : (xor a (xor b c)).toNat + 2 * (maj c a b).toNat = a.toNat + b.toNat + c.toNat := by
  cases a <;> cases b <;> cases c <;> rfl

theorem add_value (c0 : ℕ) (ct a b : Reg) (hn : ((c0 :: ct) ++ a ++ b).Nodup) (ha : a.length = ct.length + 1) (hb : b.length = ct.length + 2)
    (x : Asg) (hx : ∀ q ∈ ct, x q = false) :
    valQ b (addMap (c0 :: ct) a b x) = (valQ b x + valQ a x + (x c0).toNat) % 2 ^ b.length ∧
    ∀ q, q ∉ b → addMap (c0 :: ct) a b x q = x q := by
  induction ct generalizing c0 a b x with
  | nil =>
    obtain ⟨a0, rfl⟩ := List.length_eq_one_iff.mp ha
    obtain ⟨b0, b1, rfl⟩ := List.length_eq_two.mp hb
    have hn' : [c0, a0, b0, b1].Nodup := hn
    simp only [List.nodup_cons, List.mem_cons, List.not_mem_nil, or_false, not_or] at hn'
    obtain ⟨⟨n1, n2, n3⟩, ⟨n4, n5⟩, n6, -⟩ := hn'
    refine ⟨?_, fun q hq => ?_⟩
    · unfold addMap sumMap carryMap
      simp only [valQ, Function.update_apply, n1, n2, n3, n4, n5, n6, Ne.symm n1, Ne.symm n2, Ne.symm n3, Ne.symm n4, Ne.symm n5, Ne.symm n6,
        if_true, if_false, List.length_cons, List.length_nil]
      cases x c0 <;> cases x a0 <;> cases x b0 <;> cases x b1 <;> rfl
    · exact addMap_keeps _ _ _ _ _ (by simp) hq
  | cons c1 ct ih =>
    obtain ⟨a0, as, rfl⟩ := List.exists_cons_of_length_pos (l := a) (by omega)
    obtain ⟨b0, bs, rfl⟩ := List.exists_cons_of_length_pos (l := b) (by omega)
    have hnn := add_nodup hn
    have hbn : b0 ∉ bs := by
      have := (List.nodup_append.mp hn).2.1
      exact (List.nodup_cons.mp this).1
    have hb0c : b0 ∉ c1 :: ct ∧ b0 ∉ as := by
      simp only [List.nodup_append, List.nodup_cons, List.mem_cons, List.mem_append] at hn ⊢
      grind
    have hcd : c0 ∉ bs ∧ a0 ∉ bs ∧ c1 ∉ bs ∧ c1 ∉ as ∧ c1 ∉ ct := by
      simp only [List.nodup_append, List.nodup_cons, List.mem_cons, List.mem_append] at hn ⊢
      grind
    obtain ⟨d1, d2, d3, d4, d5⟩ := hcd
    have hn4 := hnn.1
    simp only [List.nodup_cons, List.mem_cons, List.not_mem_nil, or_false, not_or] at hn4
    obtain ⟨⟨n1, n2, n3⟩, ⟨n4, n5⟩, n6, -⟩ := hn4
    have hy := ih c1 as bs hnn.2 (by simpa using ha) (by simpa using hb) (carryMap c0 a0 b0 c1 x) (fun q hq => by
      rw [carryMap_keeps _ _ _ _ _ _ (by rintro rfl; exact d5 hq)]
      exact hx q (by simp [hq]))
    have hx1 : x c1 = false := hx c1 (by simp)
    have hc1 : carryMap c0 a0 b0 c1 x c1 = maj (x c0) (x a0) (x b0) := by
      unfold carryMap; rw [Function.update_self, hx1, Bool.false_xor]
    have hu : ∀ q, q ≠ c1 → carryMap c0 a0 b0 c1 x q = x q := fun q hq => carryMap_keeps _ _ _ _ _ _ hq
    rw [hc1, valQ_congr bs (carryMap c0 a0 b0 c1 x) x (fun q hq => hu q (by rintro rfl; exact d3 hq)),
      valQ_congr as (carryMap c0 a0 b0 c1 x) x (fun q hq => hu q (by rintro rfl; exact d4 hq))] at hy
    unfold addMap
    generalize hz : addMap (c1 :: ct) as bs (carryMap c0 a0 b0 c1 x) = z at hy ⊢
    have z0 : z c0 = x c0 := by rw [hy.2 c0 d1, hu c0 n3]
    have z1 : z a0 = x a0 := by rw [hy.2 a0 d2, hu a0 n5]
    have z2 : z b0 = x b0 := by rw [hy.2 b0 hbn, hu b0 n6]
    have z3 : z c1 = maj (x c0) (x a0) (x b0) := by rw [hy.2 c1 d3, hc1]
    have hfin : ∀ q, q ≠ b0 → sumMap c0 a0 b0 (carryMap c0 a0 b0 c1 z) q = if q = c1 then false else z q := by
      intro q hq
      rw [sumMap_keeps _ _ _ _ _ hq]
      split
      · rename_i h
        subst h
        unfold carryMap
        rw [Function.update_self, z3, z0, z1, z2, Bool.xor_self]
      · rename_i h
        exact carryMap_keeps _ _ _ _ _ _ h
    constructor
    · have hb0 : sumMap c0 a0 b0 (carryMap c0 a0 b0 c1 z) b0 = xor (x a0) (xor (x b0) (x c0)) := by
        unfold sumMap
        rw [Function.update_self, carryMap_keeps _ _ _ _ _ _ n6, carryMap_keeps _ _ _ _ _ _ n5, carryMap_keeps _ _ _ _ _ _ n3, z0, z1, z2]
      have hbs : valQ bs (sumMap c0 a0 b0 (carryMap c0 a0 b0 c1 z)) = valQ bs z := by
        refine valQ_congr _ _ _ fun q hq => ?_
        rw [hfin q (by rintro rfl; exact hbn hq), if_neg (by rintro rfl; exact d3 hq)]
      simp only [valQ]
      rw [hb0, hbs, hy.1, List.length_cons, pow_succ]
      have := bits_add (x a0) (x b0) (x c0)
      have hs : (xor (x a0) (xor (x b0) (x c0))).toNat < 2 := Bool.toNat_lt _
      generalize (xor (x a0) (xor (x b0) (x c0))).toNat = s at this hs ⊢
      generalize (maj (x c0) (x a0) (x b0)).toNat = m at this ⊢
      have e : (x b0).toNat + 2 * valQ bs x + ((x a0).toNat + 2 * valQ as x) + (x c0).toNat = s + 2 * (valQ bs x + valQ as x + m) := by omega
      rw [e]
      generalize valQ bs x + valQ as x + m = T
      rw [mul_comm (2 ^ bs.length) 2, Nat.mod_mul, show (s + 2 * T) % 2 = s by omega, show (s + 2 * T) / 2 = T by omega]
    · intro q hq
      simp only [List.mem_cons, not_or] at hq
      rw [hfin q hq.1]
      split
      · rename_i h; subst h; exact hx1.symm
      · rename_i h
        rw [hy.2 q hq.2, hu q h]

theorem valQ_putVal (r : Reg) (hn : r.Nodup) (v : ℕ) (hv : v < 2 ^ r.length) (x : Asg) : valQ r (putVal r v x) = v := by
  apply Nat.eq_of_testBit_eq
  intro i
  rw [testBit_valQ]
  split
  · rename_i h
    unfold putVal
    rw [if_pos (List.getElem_mem h), hn.idxOf_getElem]
  · rename_i h
    exact (Nat.testBit_lt_two_pow (lt_of_lt_of_le hv (Nat.pow_le_pow_right (by omega) (by omega)))).symm

theorem valQ_inj (r : Reg) (x y : Asg) (h : valQ r x = valQ r y) : ∀ q ∈ r, x q = y q := by
  intro q hq
  obtain ⟨i, hi, rfl⟩ := List.mem_iff_getElem.mp hq
  have := congrArg (fun v => v.testBit i) h
  simpa only [testBit_valQ, dif_pos hi] using this

theorem sub_value (c0 : ℕ) (ct a b : Reg) (hn : ((c0 :: ct) ++ a ++ b).Nodup) (ha : a.length = ct.length + 1) (hb : b.length = ct.length + 2)
    (x : Asg) (hx : ∀ q ∈ ct, x q = false) :
    (valQ b (subMap (c0 :: ct) a b x) : ℤ) = (valQ b x - valQ a x - (x c0).toNat) % 2 ^ b.length ∧
    ∀ q, q ∉ b → subMap (c0 :: ct) a b x q = x q := by
  obtain ⟨n1, n2, n3⟩ := List.nodup_append.mp hn
  have hp : (0 : ℤ) < 2 ^ b.length := by positivity
  obtain ⟨v, hv⟩ : ∃ v : ℕ, (v : ℤ) = (valQ b x - valQ a x - (x c0).toNat) % 2 ^ b.length :=
    Int.eq_ofNat_of_zero_le (Int.emod_nonneg _ hp.ne') |>.imp fun _ h => h.symm
  have hvl : v < 2 ^ b.length := by
    have := Int.emod_lt_of_pos (valQ b x - valQ a x - (x c0).toNat : ℤ) hp
    rw [← hv] at this
    exact_mod_cast this
  have hout : ∀ q, q ∉ b → putVal b v x q = x q := fun q hq => if_neg hq
  obtain ⟨h1, h2⟩ := add_value c0 ct a b hn ha hb (putVal b v x) (fun q hq => by
    rw [hout q fun h => n3 q (by simp [hq]) q h rfl]; exact hx q hq)
  rw [valQ_putVal b n2 v hvl x, valQ_congr a (putVal b v x) x (fun q hq => hout q fun h => n3 q (by simp [hq]) q h rfl),
    hout c0 (fun h => n3 c0 (by simp) c0 h rfl)] at h1
  have hval : (v + valQ a x + (x c0).toNat) % 2 ^ b.length = valQ b x := by
    have hz : ((v + valQ a x + (x c0).toNat : ℕ) : ℤ) % 2 ^ b.length = valQ b x := by
      push_cast
      rw [hv, add_assoc, Int.emod_add_emod]
      ring_nf
      exact Int.emod_eq_of_lt (by positivity) (by exact_mod_cast valQ_lt b x)
    exact_mod_cast hz
  have hy : addMap (c0 :: ct) a b (putVal b v x) = x := by
    funext q
    by_cases hq : q ∈ b
    · exact valQ_inj b _ _ (h1.trans hval) q hq
    · rw [h2 q hq, hout q hq]
  have hs : subMap (c0 :: ct) a b x = putVal b v x := by
    conv_lhs => rw [← hy]
    exact sub_add _ _ _ hn _
  rw [hs]
  exact ⟨by rw [valQ_putVal b n2 v hvl x, hv], hout⟩

/-! ## the method -/

theorem groupReg_one (rs : List Reg) (k : ℕ) (is : List ℕ) : groupReg rs [(k, some is)] = at' (rs.getD k []) is := by
  unfold groupReg groupPos selPos at' qubitAt
  simp

theorem at_tail (q : ℕ) (r : Reg) : at' (q :: r) (List.range' 1 r.length) = r := by
  unfold at'
  refine List.ext_getElem (by simp) fun i h1 h2 => ?_
  simp [List.getElem_range', Nat.add_comm 1, List.getElem?_eq_getElem h2]

theorem range_nodup (k i n : ℕ) : ((List.range' i n).map fun j => (k, j)).Nodup :=
  List.Nodup.map (fun _ _ h => (Prod.mk.inj h).2) (List.nodup_range' ..)

/-- the groups of the recursive case -/
theorem add_groups (c0 c1 a0 b0 : ℕ) (ct as bs : Reg) (ha : as.length = ct.length + 1) (hb : bs.length = ct.length + 2) :
    ValidGroups [c0 :: c1 :: ct, a0 :: as, b0 :: bs] [[(0, some [0])], [(1, some [0])], [(2, some [0])], [(0, some [1])]] ∧
    ValidGroups [c0 :: c1 :: ct, a0 :: as, b0 :: bs] [[(0, some (List.range' 1 (ct.length + 1)))],
      [(1, some (List.range' 1 (ct.length + 1)))], [(2, some (List.range' 1 (ct.length + 2)))]] ∧
    ValidGroups [c0 :: c1 :: ct, a0 :: as, b0 :: bs] [[(0, some [0])], [(1, some [0])], [(2, some [0])]] ∧
    [[(0, some (List.range' 1 (ct.length + 1)))], [(1, some (List.range' 1 (ct.length + 1)))],
      [(2, some (List.range' 1 (ct.length + 2)))]].map (groupReg [c0 :: c1 :: ct, a0 :: as, b0 :: bs]) = [c1 :: ct, as, bs] := by
  have e0 : groupReg [c0 :: c1 :: ct, a0 :: as, b0 :: bs] [(0, some (List.range' 1 (ct.length + 1)))] = c1 :: ct := by
    rw [groupReg_one]; exact at_tail c0 (c1 :: ct)
  have e1 : groupReg [c0 :: c1 :: ct, a0 :: as, b0 :: bs] [(1, some (List.range' 1 (ct.length + 1)))] = as := by
    rw [groupReg_one, ← ha]; exact at_tail a0 as
  have e2 : groupReg [c0 :: c1 :: ct, a0 :: as, b0 :: bs] [(2, some (List.range' 1 (ct.length + 2)))] = bs := by
    rw [groupReg_one, ← hb]; exact at_tail b0 bs
  have v1 : ValidGroups [c0 :: c1 :: ct, a0 :: as, b0 :: bs] [[(0, some [0])], [(1, some [0])], [(2, some [0])], [(0, some [1])]] :=
    ⟨by simp [groupPos, selPos], by simp [groupPos, selPos], by simp, by simp [groupPos, selPos, HasPos]⟩
  have v3 : ValidGroups [c0 :: c1 :: ct, a0 :: as, b0 :: bs] [[(0, some [0])], [(1, some [0])], [(2, some [0])]] :=
    ⟨by simp [groupPos, selPos], by simp [groupPos, selPos], by simp, by simp [groupPos, selPos, HasPos]⟩
  have v2 : ValidGroups [c0 :: c1 :: ct, a0 :: as, b0 :: bs] [[(0, some (List.range' 1 (ct.length + 1)))],
      [(1, some (List.range' 1 (ct.length + 1)))], [(2, some (List.range' 1 (ct.length + 2)))]] := by
    refine ⟨by simp [groupPos, selPos], ?_, by simp, ?_⟩
    · simp only [List.flatMap_cons, List.flatMap_nil, groupPos, selPos, List.append_nil]
      refine List.nodup_append.mpr ⟨range_nodup _ _ _, List.nodup_append.mpr ⟨range_nodup _ _ _, range_nodup _ _ _, ?_⟩, ?_⟩
      · intro p hp q hq he
        simp only [List.mem_map] at hp hq
        obtain ⟨_, -, rfl⟩ := hp
        obtain ⟨_, -, rfl⟩ := hq
        simp at he
      · intro p hp q hq he
        simp only [List.mem_map, List.mem_append] at hp hq
        obtain ⟨_, -, rfl⟩ := hp
        rcases hq with ⟨_, -, rfl⟩ | ⟨_, -, rfl⟩ <;> simp at he
    · simp only [List.flatMap_cons, List.flatMap_nil, groupPos, selPos, List.append_nil, List.mem_append, List.mem_map,
        List.mem_range'_1, HasPos]
      rintro p (⟨i, hi, rfl⟩ | ⟨i, hi, rfl⟩ | ⟨i, hi, rfl⟩)
      · simp; omega
      · simp [ha]; omega
      · simp [hb]; omega
  exact ⟨v1, v2, v3, by rw [List.map_cons, List.map_cons, List.map_cons, e0, e1, e2, List.map_nil]⟩

theorem Maps.addF (hang : ∀ ρ, ang (Rot.neg ρ) = -ang ρ) (fuel : ℕ) (c0 : ℕ) (ct a b : Reg) (hf : ct.length < fuel)
    (ha : a.length = ct.length + 1) (hb : b.length = ct.length + 2) :
    Maps ang [] (Arith.addF fuel [c0 :: ct, a, b] : M LocalBuilder _) [c0 :: ct, a, b] [c0 :: ct, a, b].flatten (addMap (c0 :: ct) a b) := by
  induction fuel generalizing c0 ct a b with
  | zero => omega
  | succ fuel ih =>
    have hk : ∀ x q, q ∉ [c0 :: ct, a, b].flatten → addMap (c0 :: ct) a b x q = x q := by
      intro x q hq
      simp only [List.flatten_cons, List.flatten_nil, List.append_nil, List.mem_append, List.mem_cons, not_or] at hq
      exact addMap_keeps _ _ _ _ _ hq.1.2 hq.2.2
    have hr : ∀ r ∈ [c0 :: ct, a, b], r ≠ [] := by
      intro r hr
      simp only [List.mem_cons, List.not_mem_nil, or_false] at hr
      rcases hr with rfl | rfl | rfl
      · simp
      · rintro rfl; simp at ha
      · rintro rfl; simp at hb
    unfold Arith.addF
    cases ct with
    | nil =>
      obtain ⟨a0, rfl⟩ := List.length_eq_one_iff.mp ha
      obtain ⟨b0, b1, rfl⟩ := List.length_eq_two.mp hb
      rw [if_pos (by simp)]
      refine Maps.program hr hk fun hn => ?_
      have v1 : ValidGroups [[c0], [a0], [b0, b1]] [[(0, none)], [(1, none)], [(2, some [0])], [(2, some [1])]] :=
        valid_shape (rs' := [[0], [1], [2, 3]]) rfl ⟨by decide, by decide, by decide, by unfold HasPos; decide⟩
      have v2 : ValidGroups [[c0], [a0], [b0, b1]] [[(0, none)], [(1, none)], [(2, some [0])]] :=
        valid_shape (rs' := [[0], [1], [2, 3]]) rfl ⟨by decide, by decide, by decide, by unfold HasPos; decide⟩
      have h1 : Maps ang [] _ _ _ _ := Maps.lines_nil (β := LocalBuilder) (rs := [[c0], [a0], [b0, b1]])
      have h2 := Maps.lines_cons hn (l := .plain Arith.sum [[(0, none)], [(1, none)], [(2, some [0])]]) v2 (Maps.sum [] c0 a0 b0) rfl h1
      have h3 := Maps.lines_cons hn (l := .plain Arith.carry [[(0, none)], [(1, none)], [(2, some [0])], [(2, some [1])]]) v1
        (Maps.carry [] c0 a0 b0 b1) rfl h2
      exact h3.congr fun x => rfl
    | cons c1 ct =>
      obtain ⟨a0, as, rfl⟩ := List.exists_cons_of_length_pos (l := a) (by omega)
      obtain ⟨b0, bs, rfl⟩ := List.exists_cons_of_length_pos (l := b) (by omega)
      simp only [List.length_cons, Nat.add_right_cancel_iff] at ha hb hf
      rw [if_neg (by simp), if_pos (by simp [ha, hb])]
      refine Maps.program hr hk fun hn => ?_
      have hlen : (c0 :: c1 :: ct).length = ct.length + 2 := rfl
      rw [hlen, show ct.length + 2 - 1 = ct.length + 1 from rfl]
      obtain ⟨v1, v2, v3, e⟩ := add_groups c0 c1 a0 b0 ct as bs ha hb
      have h1 : Maps ang [] _ _ _ _ := Maps.lines_nil (β := LocalBuilder) (rs := [c0 :: c1 :: ct, a0 :: as, b0 :: bs])
      have h2 := Maps.lines_cons hn (l := .plain Arith.sum [[(0, some [0])], [(1, some [0])], [(2, some [0])]]) v3 (Maps.sum [] c0 a0 b0) rfl h1
      have h3 := Maps.lines_cons hn (l := .plain Arith.carryInv [[(0, some [0])], [(1, some [0])], [(2, some [0])], [(0, some [1])]]) v1
        (Maps.carryInv hang c0 a0 b0 c1) rfl h2
      have h4 := Maps.lines_plain hn (f := Arith.addF fuel) v2 (as := [c1 :: ct, as, bs]) e (ih c1 ct as bs (by omega) ha hb) h3
      have h5 := Maps.lines_cons hn (l := .plain Arith.carry [[(0, some [0])], [(1, some [0])], [(2, some [0])], [(0, some [1])]]) v1
        (Maps.carry [] c0 a0 b0 c1) rfl h4
      exact h5.congr fun x => rfl

theorem Maps.add (hang : ∀ ρ, ang (Rot.neg ρ) = -ang ρ) (c0 : ℕ) (ct a b : Reg) (ha : a.length = ct.length + 1) (hb : b.length = ct.length + 2) :
    Maps ang [] (Arith.add [c0 :: ct, a, b] : M LocalBuilder _) [c0 :: ct, a, b] [c0 :: ct, a, b].flatten (addMap (c0 :: ct) a b) :=
  Maps.addF hang _ c0 ct a b (by simp) ha hb

/-! ## the inverse -/

theorem Seen.sub {g : ℕ → ℕ} {S : List ℕ} (hg : Set.InjOn g {i | i ∈ S}) (c a b : Reg) {y x : Asg} (h : Seen g S y x) (hc : ∀ i ∈ c, i ∈ S)
    (ha : ∀ i ∈ a, i ∈ S) (hb : ∀ i ∈ b, i ∈ S) : Seen g S (subMap c a b y) (subMap (c.map g) (a.map g) (b.map g) x) := by
  fun_induction subMap c a b y generalizing x with
  | case1 c a b b' y =>
    exact (h.sum hg (hc c (by simp)) (ha a (by simp)) (hb b (by simp))).carry hg (hc c (by simp)) (ha a (by simp)) (hb b (by simp)) (hb b' (by simp))
  | case2 c c' cs a as b bs y ih =>
    have h1 := hc c (by simp)
    have h2 := ha a (by simp)
    have h3 := hb b (by simp)
    have h4 := hc c' (by simp)
    exact (ih ((h.sum hg h1 h2 h3).carry hg h1 h2 h3 h4) (fun i hi => hc i (List.mem_cons_of_mem _ hi)) (fun i hi => ha i (by simp [hi]))
      (fun i hi => hb i (by simp [hi]))).carry hg h1 h2 h3 h4
  | case3 c a b y h2 h3 =>
    have : subMap (c.map g) (a.map g) (b.map g) x = x := by
      rcases c with _ | ⟨c, _ | ⟨c', cs⟩⟩
      · rfl
      · rcases a with _ | ⟨a, _ | ⟨a', as⟩⟩
        · rfl
        · rcases b with _ | ⟨b, _ | ⟨b', _ | ⟨b'', bs⟩⟩⟩
          · rfl
          · rfl
          · exact absurd rfl (h2 _ _ _ _ rfl rfl)
          · rfl
        · rfl
      · rcases a with _ | ⟨a, as⟩
        · rfl
        · rcases b with _ | ⟨b, bs⟩
          · rfl
          · exact absurd rfl (h3 _ _ _ _ _ _ _ rfl rfl)
    rw [this]
    exact h

theorem Maps.addInv (hang : ∀ ρ, ang (Rot.neg ρ) = -ang ρ) (c0 : ℕ) (ct a b : Reg) (ha : a.length = ct.length + 1) (hb : b.length = ct.length + 2) :
    Maps ang [] (Arith.addInv [c0 :: ct, a, b] : M LocalBuilder _) [c0 :: ct, a, b] [c0 :: ct, a, b].flatten (subMap (c0 :: ct) a b) := by
  have hk : ∀ x q, q ∉ [c0 :: ct, a, b].flatten → subMap (c0 :: ct) a b x q = x q := by
    intro x q hq
    simp only [List.flatten_cons, List.flatten_nil, List.append_nil, List.mem_append, List.mem_cons, not_or] at hq
    exact subMap_keeps _ _ _ _ _ hq.1.2 hq.2.2
  refine Maps.of_nodup hk fun hn => ?_
  have hr : ∀ r ∈ [c0 :: ct, a, b], r ≠ [] := by
    intro r hr
    simp only [List.mem_cons, List.not_mem_nil, or_false] at hr
    rcases hr with rfl | rfl | rfl
    · simp
    · rintro rfl; simp at ha
    · rintro rfl; simp at hb
  obtain ⟨n, hnn⟩ : ∃ n, n = ct.length := ⟨_, rfl⟩
  have hrg : ranges 0 ([c0 :: ct, a, b].map List.length) = [0 :: List.range' 1 n, List.range' (n + 1) (n + 1), List.range' (n + 1 + (n + 1)) (n + 2)] := by
    simp only [List.map_cons, List.map_nil, ranges, List.length_cons, ha, hb, ← hnn, List.range'_succ, Nat.zero_add]
  have hfl : [c0 :: ct, a, b].flatten.length = 3 * n + 4 := by
    simp only [List.flatten_cons, List.flatten_nil, List.append_nil, List.length_append, List.length_cons, ha, hb, ← hnn]; omega
  have hrf : (ranges 0 ([c0 :: ct, a, b].map List.length)).flatten = List.range (3 * n + 4) := by
    rw [ranges_flatten, ← List.length_flatten, hfl, List.range_eq_range']
  have hadd : Maps ang [] (Arith.add (ranges 0 ([c0 :: ct, a, b].map List.length)) : M LocalBuilder _) (ranges 0 ([c0 :: ct, a, b].map List.length))
      (List.range [c0 :: ct, a, b].flatten.length) (addMap (0 :: List.range' 1 n) (List.range' (n + 1) (n + 1)) (List.range' (n + 1 + (n + 1)) (n + 2))) := by
    rw [hfl, ← hrf, hrg]
    exact Maps.add hang 0 _ _ _ (by simp) (by simp)
  have hnd : ((0 :: List.range' 1 n) ++ List.range' (n + 1) (n + 1) ++ List.range' (n + 1 + (n + 1)) (n + 2)).Nodup := by
    have : ((0 :: List.range' 1 n) ++ List.range' (n + 1) (n + 1) ++ List.range' (n + 1 + (n + 1)) (n + 2)) = List.range (3 * n + 4) := by
      rw [← hrf, hrg]; simp
    rw [this]
    exact List.nodup_range
  refine (Maps.inverse hang (by simp) hr hadd (Ψ := subMap (0 :: List.range' 1 n) (List.range' (n + 1) (n + 1)) (List.range' (n + 1 + (n + 1)) (n + 2)))
    (fun z hz => ⟨fun i hi => ?_, add_sub _ _ _ hnd z⟩) ?_).1.congr fun x => ?_
  · rw [subMap_keeps, hz i hi]
    · simp only [List.tail_cons, List.mem_range'_1]
      have := hfl ▸ hi
      omega
    · simp only [List.mem_range'_1]
      have := hfl ▸ hi
      omega
  · refine ⟨fun q => decide (q = 0 ∨ 2 * n + 2 ≤ q ∧ q < 3 * n + 3), fun i hi => ?_, ?_⟩
    · have := hfl ▸ hi
      simp only [decide_eq_false_iff_not]
      omega
    · rw [hfl]
      have hv := (add_value 0 (List.range' 1 n) (List.range' (n + 1) (n + 1)) (List.range' (n + 1 + (n + 1)) (n + 2)) hnd (by simp) (by simp)
        (fun q => decide (q = 0 ∨ 2 * n + 2 ≤ q ∧ q < 3 * n + 3)) (fun q hq => by
          simp only [List.mem_range'_1] at hq
          simp only [decide_eq_false_iff_not]
          omega)).1
      have hb1 : valQ (List.range' (n + 1 + (n + 1)) (n + 2)) (fun q => decide (q = 0 ∨ 2 * n + 2 ≤ q ∧ q < 3 * n + 3)) = 2 ^ (n + 1) - 1 := by
        apply Nat.eq_of_testBit_eq
        intro i
        rw [testBit_valQ, Nat.testBit_two_pow_sub_one]
        split
        · rename_i hi
          simp only [List.length_range'] at hi
          simp only [List.getElem_range', decide_eq_decide]
          omega
        · rename_i hi
          simp only [List.length_range'] at hi
          simp only [Bool.false_eq, decide_eq_false_iff_not]
          omega
      have ha1 : valQ (List.range' (n + 1) (n + 1)) (fun q => decide (q = 0 ∨ 2 * n + 2 ≤ q ∧ q < 3 * n + 3)) = 0 := by
        apply Nat.eq_of_testBit_eq
        intro i
        rw [testBit_valQ, Nat.zero_testBit]
        split
        · rename_i hi
          simp only [List.length_range'] at hi
          simp only [List.getElem_range', decide_eq_false_iff_not]
          omega
        · rfl
      have hp : 0 < 2 ^ (n + 1) := by positivity
      rw [hb1, ha1, List.length_range', Nat.add_zero, show (decide ((0 : ℕ) = 0 ∨ 2 * n + 2 ≤ 0 ∧ 0 < 3 * n + 3)).toNat = 1 by simp,
        Nat.sub_add_cancel hp, Nat.mod_eq_of_lt (Nat.pow_lt_pow_right (by omega) (by omega))] at hv
      have ht := congrArg (fun v => v.testBit (n + 1)) hv
      rw [testBit_valQ, dif_pos (by simp), Nat.testBit_two_pow_self, List.getElem_range'] at ht
      rw [show 3 * n + 4 - 1 = n + 1 + (n + 1) + 1 * (n + 1) by omega, ht]
      simp
      omega
  · refine emb_of_seen [c0 :: ct, a, b] hn x _ _ (hk x) fun g hg he y hy => ?_
    rw [hrg] at he
    simp only [List.map_cons, List.map_nil, List.cons.injEq, and_true] at he
    obtain ⟨⟨e1, e2⟩, e3, e4⟩ := he
    have hm : ∀ i < 3 * n + 4, i ∈ (ranges 0 ([c0 :: ct, a, b].map List.length)).flatten := fun i hi => by
      rw [hrf]; exact List.mem_range.mpr hi
    have hs := Seen.sub hg (0 :: List.range' 1 n) (List.range' (n + 1) (n + 1)) (List.range' (n + 1 + (n + 1)) (n + 2)) hy
      (fun i hi => hm i (by simp only [List.mem_cons, List.mem_range'_1] at hi; omega))
      (fun i hi => hm i (by simp only [List.mem_range'_1] at hi; omega)) (fun i hi => hm i (by simp only [List.mem_range'_1] at hi; omega))
    have e0 : (0 :: List.range' 1 n).map g = c0 :: ct := by rw [List.map_cons, ← e1, ← e2]
    rw [e0, ← e3, ← e4] at hs
    exact hs

end Verif
