import Verif.Proofs.CondAdd
import Verif.Proofs.Masked
import Verif.Proofs.Temp

/-! # `add_mod` -/

namespace Verif
open Classical Complex RegOps CircuitBuilder TempBuilder Rooted

/-! ## additions without carries -/

theorem valQ_take (r : Reg) (i : ℕ) (x : Asg) : valQ (r.take i) x = valQ r x % 2 ^ i := by
  apply Nat.eq_of_testBit_eq
  intro j
  rw [testBit_valQ, Nat.testBit_mod_two_pow, testBit_valQ]
  by_cases h : j < i
  · by_cases h2 : j < r.length
    · simp [h, h2]
    · simp [h2]
  · simp [h]

/-- without a carry into a position of `a` other than the first, `add` works inside conditions too -/
theorem addW_nocarry (c0 : ℕ) (ct a b : Reg) (hn : ((c0 :: ct) ++ a ++ b).Nodup) (ha : a.length = ct.length + 1) (hb : b.length = ct.length + 2)
    (x : Asg) (hx : ∀ q ∈ ct, x q = false)
    (h : ∀ i, 0 < i → i < a.length → valQ (a.take i) x + valQ (b.take i) x + (x c0).toNat < 2 ^ i) :
    addW (c0 :: ct) a b x = ket (addMap (c0 :: ct) a b x) := by
  induction ct generalizing c0 a b with
  | nil =>
    obtain ⟨a0, rfl⟩ := List.length_eq_one_iff.mp ha
    obtain ⟨b0, b1, rfl⟩ := List.length_eq_two.mp hb
    rfl
  | cons c1 ct ih =>
    obtain ⟨a0, as, rfl⟩ := List.exists_cons_of_length_pos (l := a) (by omega)
    obtain ⟨b0, bs, rfl⟩ := List.exists_cons_of_length_pos (l := b) (by omega)
    have hnn := add_nodup hn
    have hd : c0 ∉ bs ∧ a0 ∉ bs ∧ b0 ∉ bs ∧ c0 ∉ ct ∧ a0 ∉ ct ∧ b0 ∉ ct := by
      simp only [List.nodup_append, List.nodup_cons, List.mem_cons, List.mem_append] at hn ⊢
      grind
    obtain ⟨d1, d2, d3, d4, d5, d6⟩ := hd
    have h1 := h 1 (by omega) (by simp at ha ⊢; omega)
    simp only [List.take_succ_cons, List.take_zero, valQ] at h1
    have hmaj : maj (x c0) (x a0) (x b0) = false := by
      cases hc : x c0 <;> cases ha : x a0 <;> cases hb : x b0 <;> simp_all [maj]
    have hx1 : x c1 = false := hx c1 (by simp)
    have hcx : carryMap c0 a0 b0 c1 x = x := by
      unfold carryMap
      rw [hmaj, Bool.xor_false, Function.update_eq_self]
    have hz := ih c1 as bs hnn.2 (by simpa using ha) (by simpa using hb) (fun q hq => hx q (by simp [hq])) (fun i h0 hi => by
      have := h (i + 1) (by omega) (by simpa using hi)
      simp only [List.take_succ_cons, valQ, pow_succ] at this
      rw [hx1]
      simp only [Bool.toNat_false]
      omega)
    unfold addW addMap
    rw [hcx, hz, lift_ket]
    have hk : ∀ q, q ∉ ct → q ∉ bs → addMap (c1 :: ct) as bs x q = x q := fun q h1 h2 => addMap_keeps _ _ _ _ _ h1 h2
    have hmaj2 : maj (addMap (c1 :: ct) as bs x c0) (addMap (c1 :: ct) as bs x a0) (addMap (c1 :: ct) as bs x b0) = false := by
      rw [hk c0 d4 d1, hk a0 d5 d2, hk b0 d6 d3, hmaj]
    have e1 : carryW c0 a0 b0 c1 (addMap (c1 :: ct) as bs x) = ket (addMap (c1 :: ct) as bs x) := by
      unfold carryW
      rw [hmaj2]
      simp
    have e2 : carryMap c0 a0 b0 c1 (addMap (c1 :: ct) as bs x) = addMap (c1 :: ct) as bs x := by
      unfold carryMap
      rw [hmaj2, Bool.xor_false, Function.update_eq_self]
    rw [e1, lift_ket, e2]

/-! ## lines -/

section
variable {ang : Rot → ℝ} {β : Type} [Conditionable β] [Rooted β] [Sim β] {cs : List Reg} {rs : List Reg}

/-- a `control` line -/
theorem Moves.control {f : List Reg → M (Conditioned β) (List Reg)} {g0 : List Sel} {gs : List (List Sel)} {U : Asg → Wave} {c : Reg} {as : List Reg}
    (e0 : groupReg rs g0 = c) (e1 : gs.map (groupReg rs) = as) (hc : c ≠ [])
    (h : Moves ang (c :: cs) (f as) as as.flatten U) :
    Moves ang cs (Line.call rs (.control none f (g0 :: gs) : Line β)) ((g0 :: gs).map (groupReg rs))
      ((g0 :: gs).map (groupReg rs)).flatten (fun x => if ∀ q ∈ c, x q = true then U x else ket x) := by
  have h1 := Moves.map (f := fun p : List Reg × Reg => p.2 :: p.1) (Moves.conditioned hc h) rfl
  refine Moves.cast ?_ (a := c :: as) (m := Conditioned.conditioned c (f as) >>= fun a => Pure.pure (a.2 :: a.1)) ?_ (by simp [e0, e1])
  · rw [List.map_cons, e0, e1, List.flatten_cons]
    exact h1
  · unfold Line.call
    simp only [List.map_cons, e0, e1, pure_bind]

/-- a `control(bits) x` line -/
theorem Maps.control_masked_x {g0 g1 : List Sel} {c : Reg} {q m : ℕ} (e0 : groupReg rs g0 = c) (e1 : groupReg rs g1 = [q]) (hc : c ≠ []) :
    Maps ang cs (Line.call rs (.control (some m) (Verif.op1 Gate.x) [g0, g1] : Line β)) ([g0, g1].map (groupReg rs))
      ([g0, g1].map (groupReg rs)).flatten (fun x => if ∀ d ∈ c, negMask c m x d = true then flipQ q x else x) := by
  have hk : ∀ x p, p ∉ ([g0, g1].map (groupReg rs)).flatten → (if ∀ d ∈ c, negMask c m x d = true then flipQ q x else x) p = x p := by
    intro x p hp
    simp only [List.map_cons, List.map_nil, e0, e1, List.flatten_cons, List.flatten_nil, List.append_nil, List.mem_append, not_or] at hp
    split
    · exact flipQ_of_ne q p (by simpa using hp.2) x
    · rfl
  refine Maps.of_nodup hk fun hn => ?_
  simp only [List.map_cons, List.map_nil, e0, e1, List.flatten_cons, List.flatten_nil, List.append_nil] at hn ⊢
  have hcn : c.Nodup := (List.nodup_append.mp hn).1
  have hqc : q ∉ c := fun h => (List.nodup_append.mp hn).2.2 q h q (by simp) rfl
  have hneg : Maps ang cs (Verif.negateBitmask c m : M β _) c (c ++ [q]) (negMask c m) :=
    (Maps.negateBitmask cs c hc m).mono hcn (by intro p hp; simp [hp])
  have hx := Maps.conditioned (ang := ang) (β := β) (cs := cs) hc (Maps.op1 (Maps.x (β := Conditioned β) (c :: cs) q))
  have h2 : Maps ang cs (Verif.negateBitmask c m >>= fun c => Pure.pure (c :: [[q]]) : M β _) [c, [q]] (c ++ [q]) (negMask c m) :=
    (hneg.map (f := fun c => c :: [[q]]) rfl)
  have h3 := hneg.bind (f := fun c => do
    let (rs, cr) ← Conditioned.conditioned c (Verif.op1 Gate.x [[q]])
    let cr ← Verif.negateBitmask cr m
    Pure.pure (cr :: rs)) (hx.bind (f := fun p : List Reg × Reg => do
      let cr ← Verif.negateBitmask p.2 m
      Pure.pure (cr :: p.1)) h2)
  refine (h3.cast ?_ rfl).congr fun x => ?_
  · unfold Line.call
    simp only [List.map_cons, List.map_nil, e0, e1]
  · by_cases h : ∀ d ∈ c, negMask c m x d = true
    · rw [if_pos h, if_pos h]
      funext p
      by_cases hp : p = q
      · subst hp
        rw [Maps.negMask_keeps c m _ p hqc, flipQ_self, flipQ_self, Maps.negMask_keeps c m _ p hqc]
      · rw [flipQ_of_ne q p hp]
        have : negMask c m (flipQ q (negMask c m x)) p = negMask c m (negMask c m x) p := by
          unfold negMask
          rw [flipQ_of_ne q p hp]
        rw [this, Maps.negMask_negMask]
    · rw [if_neg h, if_neg h, Maps.negMask_negMask]

end

theorem negMask_zero (q : ℕ) (x : Asg) : negMask [q] 0 x q = true ↔ x q = false := by
  simp [negMask]

theorem rotAngle_neg' (ρ : Rot) : rotAngle ρ.neg = -rotAngle ρ := by
  cases ρ <;> simp [rotAngle, Rot.neg] <;> ring

/-! ## the program -/

/-- after the first three lines -/
def modPre (ra rb rm : Reg) (t n : ℕ) (rc : Reg) (x : Asg) : Asg :=
  let y := subMap rc rm rb (addMap rc ra rb x)
  if y (rb.getD n 0) = true then flipQ t y else y

/-- the last three lines -/
def modPost (ra rb : Reg) (t n : ℕ) (rc : Reg) (x : Asg) : Asg :=
  let y := subMap rc ra rb x
  addMap rc ra rb (if y (rb.getD n 0) = false then flipQ t y else y)

/-- the lines of `add_mod` -/
noncomputable def modLines (n : ℕ) : List (Line LocalBuilder) :=
  [.plain Arith.add [[(4, none)], [(0, none)], [(1, none)]],
   .plain Arith.addInv [[(4, none)], [(2, none)], [(1, none)]],
   .control none (op1 Gate.x) [[(1, some [n])], [(3, none)]],
   .control none Arith.add [[(3, none)], [(4, none)], [(2, none)], [(1, none)]],
   .plain Arith.addInv [[(4, none)], [(0, none)], [(1, none)]],
   .control (some 0) (op1 Gate.x) [[(1, some [n])], [(3, none)]],
   .plain Arith.add [[(4, none)], [(0, none)], [(1, none)]]]

theorem groupReg_all (rs : List Reg) (k : ℕ) : groupReg rs [(k, none)] = rs.getD k [] := by
  unfold groupReg groupPos selPos
  simp only [List.flatMap_cons, List.flatMap_nil, List.append_nil]
  refine List.ext_getElem (by simp) fun i h1 h2 => ?_
  simp only [List.getElem_map, List.getElem_range, qubitAt]
  exact List.getD_eq_getElem _ _ h2

theorem valid_none (rs : List Reg) (ks : List ℕ) (hk : ks.Nodup) (h : ∀ k ∈ ks, k < rs.length ∧ rs.getD k [] ≠ []) :
    ValidGroups rs (ks.map fun k => [(k, none)]) := by
  have hpos : ∀ k, groupPos rs [(k, none)] = (List.range (rs.getD k []).length).map fun i => (k, i) := fun k => by
    simp [groupPos, selPos]
  refine ⟨?_, ?_, ?_, ?_⟩
  · intro g hg
    obtain ⟨k, hk, rfl⟩ := List.mem_map.mp hg
    rw [hpos]
    have := List.length_pos_iff.mpr (h k hk).2
    simp only [ne_eq, List.map_eq_nil_iff, List.range_eq_nil]
    omega
  · rw [List.flatMap_map, List.nodup_flatMap]
    refine ⟨fun k _ => ?_, hk.imp fun {k l} hkl => ?_⟩
    · rw [hpos]
      exact List.Nodup.map (fun _ _ h => (Prod.mk.inj h).2) List.nodup_range
    · simp only [Function.onFun, hpos]
      intro p hp hq
      obtain ⟨i, -, rfl⟩ := List.mem_map.mp hp
      obtain ⟨j, -, hj⟩ := List.mem_map.mp hq
      exact hkl (Prod.mk.inj hj).1.symm
  · intro g hg s hs
    obtain ⟨k, hk, rfl⟩ := List.mem_map.mp hg
    simp only [List.mem_singleton] at hs
    subst hs
    exact (h k hk).1
  · intro p hp
    rw [List.flatMap_map, List.mem_flatMap] at hp
    obtain ⟨k, hk, hp⟩ := hp
    rw [hpos] at hp
    obtain ⟨i, hi, rfl⟩ := List.mem_map.mp hp
    exact ⟨(h k hk).1, List.mem_range.mp hi⟩

/-- the effect of the lines of `add_mod` -/
theorem Moves.modLines (n : ℕ) (ra rb rm : Reg) (t c0 : ℕ) (ct : Reg) (ha : ra.length = n) (hm : rm.length = n) (hb : rb.length = n + 1)
    (hc : n = ct.length + 1) (hn : [ra, rb, rm, [t], c0 :: ct].flatten.Nodup) :
    Moves rotAngle [] (Verif.program [ra, rb, rm, [t], c0 :: ct] (Verif.modLines n)) [ra, rb, rm, [t], c0 :: ct]
      [ra, rb, rm, [t], c0 :: ct].flatten (fun x => lift (fun y => ket (modPost ra rb t n (c0 :: ct) y))
        (let y := modPre ra rb rm t n (c0 :: ct) x
         if y t = true then addW (c0 :: ct) rm rb y else ket y)) := by
  have hr : ∀ r ∈ [ra, rb, rm, [t], c0 :: ct], r ≠ [] := by
    intro r hr
    simp only [List.mem_cons, List.not_mem_nil, or_false] at hr
    rcases hr with rfl | rfl | rfl | rfl | rfl
    · rintro rfl; simp at ha; omega
    · rintro rfl; simp at hb
    · rintro rfl; simp at hm; omega
    · simp
    · simp
  have hr0 := hr ra (by simp)
  have hr1 := hr rb (by simp)
  have hr2 := hr rm (by simp)
  have hnb : n < rb.length := by omega
  obtain ⟨rs, hrs⟩ : ∃ rs, rs = [ra, rb, rm, [t], c0 :: ct] := ⟨_, rfl⟩
  rw [← hrs] at hr hn ⊢
  have g0 : groupReg rs [(0, none)] = ra := by rw [groupReg_all, hrs]; rfl
  have g1 : groupReg rs [(1, none)] = rb := by rw [groupReg_all, hrs]; rfl
  have g2 : groupReg rs [(2, none)] = rm := by rw [groupReg_all, hrs]; rfl
  have g3 : groupReg rs [(3, none)] = [t] := by rw [groupReg_all, hrs]; rfl
  have g4 : groupReg rs [(4, none)] = c0 :: ct := by rw [groupReg_all, hrs]; rfl
  have gn : groupReg rs [(1, some [n])] = [rb.getD n 0] := by rw [groupReg_one, hrs]; rfl
  have va : ValidGroups rs [[(4, none)], [(0, none)], [(1, none)]] :=
    valid_none rs [4, 0, 1] (by simp) (by rw [hrs]; simp [hr0, hr1])
  have vm : ValidGroups rs [[(4, none)], [(2, none)], [(1, none)]] :=
    valid_none rs [4, 2, 1] (by simp) (by rw [hrs]; simp [hr1, hr2])
  have vc : ValidGroups rs [[(3, none)], [(4, none)], [(2, none)], [(1, none)]] :=
    valid_none rs [3, 4, 2, 1] (by simp) (by rw [hrs]; simp [hr1, hr2])
  have vx : ValidGroups rs [[(1, some [n])], [(3, none)]] := by
    rw [hrs]
    refine ⟨by simp [groupPos, selPos], by simp [groupPos, selPos], by simp, ?_⟩
    simp [groupPos, selPos, HasPos, hb]
  have mA : Maps rotAngle [] (Arith.add [c0 :: ct, ra, rb] : M LocalBuilder _) _ _ _ := Maps.add rotAngle_neg' c0 ct ra rb (by omega) (by omega)
  have mS : Maps rotAngle [] (Arith.addInv [c0 :: ct, ra, rb] : M LocalBuilder _) _ _ _ := Maps.addInv rotAngle_neg' c0 ct ra rb (by omega) (by omega)
  have mM : Maps rotAngle [] (Arith.addInv [c0 :: ct, rm, rb] : M LocalBuilder _) _ _ _ := Maps.addInv rotAngle_neg' c0 ct rm rb (by omega) (by omega)
  have mC := Moves.add (β := Conditioned LocalBuilder) (cs := [[t]]) (by simp) c0 ct rm rb (by omega) (by omega)
  have h1 : Moves rotAngle [] _ _ _ _ := Moves.lines_nil (β := LocalBuilder) (rs := rs)
  have h2 := Moves.lines_map hn va (as := [c0 :: ct, ra, rb]) (by simp only [List.map_cons, List.map_nil, g0, g1, g4]) mA h1
  have h3 := Moves.lines_cons hn (l := .control (some 0) (Verif.op1 Gate.x) [[(1, some [n])], [(3, none)]]) vx
    (Maps.control_masked_x gn g3 (by simp)).moves rfl h2
  have h4 := Moves.lines_map hn va (as := [c0 :: ct, ra, rb]) (by simp only [List.map_cons, List.map_nil, g0, g1, g4]) mS h3
  have h5 := Moves.lines_cons hn (l := .control none Arith.add [[(3, none)], [(4, none)], [(2, none)], [(1, none)]]) vc
    (Moves.control g3 (as := [c0 :: ct, rm, rb]) (by simp only [List.map_cons, List.map_nil, g1, g2, g4]) (by simp) mC) rfl h4
  have h6 := Moves.lines_cons hn (l := .control none (Verif.op1 Gate.x) [[(1, some [n])], [(3, none)]]) vx
    (Maps.control_x (by rw [gn]; simp) g3).moves rfl h5
  have h7 := Moves.lines_map hn vm (as := [c0 :: ct, rm, rb]) (by simp only [List.map_cons, List.map_nil, g1, g2, g4]) mM h6
  have h8 := Moves.lines_map hn va (as := [c0 :: ct, ra, rb]) (by simp only [List.map_cons, List.map_nil, g0, g1, g4]) mA h7
  refine (Moves.program_nodup hr hn h8).congr fun x => ?_
  rw [lift_ket]
  simp only [gn, List.mem_singleton, forall_eq, negMask_zero, lift_ket]
  rfl

/-! ## values -/

theorem top_bit (r : Reg) (n : ℕ) (hr : r.length = n + 1) (x : Asg) : x (r.getD n 0) = decide (2 ^ n ≤ valQ r x) := by
  have h := testBit_valQ r x n
  rw [dif_pos (by omega)] at h
  rw [List.getD_eq_getElem _ _ (by omega), ← h]
  have hlt := valQ_lt r x
  rw [hr, pow_succ] at hlt
  by_cases hv : 2 ^ n ≤ valQ r x
  · rw [decide_eq_true hv, Nat.testBit_eq_decide_div_mod_eq]
    have : valQ r x / 2 ^ n = 1 := Nat.div_eq_of_lt_le (by omega) (by omega)
    rw [this]; rfl
  · rw [decide_eq_false hv]
    exact Nat.testBit_lt_two_pow (by omega)

/-- `add_mod` on a basis state with clean temporaries -/
theorem mod_value (n : ℕ) (ra rb rm : Reg) (t c0 : ℕ) (ct : Reg) (ha : ra.length = n) (hm : rm.length = n) (hb : rb.length = n + 1)
    (hc : n = ct.length + 1) (hn : [ra, rb, rm, [t], c0 :: ct].flatten.Nodup) (x : Asg) (hx : ∀ q ∈ t :: c0 :: ct, x q = false)
    (h1 : valQ ra x < valQ rm x) (h2 : valQ rb x < valQ rm x)
    (h3 : valQ rm x ≤ valQ ra x + valQ rb x ∨ ∀ i < n, valQ rm x % 2 ^ i ≤ (valQ ra x + valQ rb x) % 2 ^ i) :
    lift (fun y => ket (modPost ra rb t n (c0 :: ct) y))
        (let y := modPre ra rb rm t n (c0 :: ct) x
         if y t = true then addW (c0 :: ct) rm rb y else ket y) = ket (putVal rb ((valQ ra x + valQ rb x) % valQ rm x) x) := by
  have hmlt := valQ_lt rm x
  rw [hm] at hmlt
  have hP : (2 : ℕ) ^ rb.length = 2 * 2 ^ n := by rw [hb, pow_succ, mul_comm]
  have hPz : (2 : ℤ) ^ rb.length = 2 * 2 ^ n := by exact_mod_cast hP
  have hpz : ((2 : ℤ) ^ n) = ((2 ^ n : ℕ) : ℤ) := by push_cast; rfl
  simp only [List.flatten_cons, List.flatten_nil, List.append_nil] at hn
  have na : ((c0 :: ct) ++ ra ++ rb).Nodup := by
    simp only [List.nodup_append, List.nodup_cons, List.mem_cons, List.mem_append] at hn ⊢
    grind
  have nm : ((c0 :: ct) ++ rm ++ rb).Nodup := by
    simp only [List.nodup_append, List.nodup_cons, List.mem_cons, List.mem_append] at hn ⊢
    grind
  have hab : ∀ q ∈ ra, q ∉ rb := fun q h1 h2 => (List.nodup_append.mp na).2.2 q (by simp [h1]) q h2 rfl
  have hmb : ∀ q ∈ rm, q ∉ rb := fun q h1 h2 => (List.nodup_append.mp nm).2.2 q (by simp [h1]) q h2 rfl
  have hcb : ∀ q ∈ c0 :: ct, q ∉ rb := fun q h1 h2 => (List.nodup_append.mp na).2.2 q (List.mem_append_left _ h1) q h2 rfl
  have htn : t ∉ rb ∧ t ∉ ra ∧ t ∉ rm ∧ t ∉ c0 :: ct := by
    simp only [List.nodup_append, List.nodup_cons, List.mem_cons, List.mem_append] at hn ⊢
    grind
  obtain ⟨tb, ta, tm, tc⟩ := htn
  have nb : rb.Nodup := (List.nodup_append.mp na).2.1
  obtain ⟨M, hM⟩ : ∃ M, valQ rm x = M := ⟨_, rfl⟩
  obtain ⟨A, hA⟩ : ∃ A, valQ ra x = A := ⟨_, rfl⟩
  obtain ⟨B, hB⟩ : ∃ B, valQ rb x = B := ⟨_, rfl⟩
  rw [hM, hA] at h1
  rw [hM, hB] at h2
  rw [hM, hA, hB] at h3
  rw [hM] at hmlt
  rw [hM, hA, hB]
  -- additions and subtractions on states that agree with x outside rb
  have stepA : ∀ y : Asg, (∀ q, q ∉ rb → q ≠ t → y q = x q) → valQ rb (addMap (c0 :: ct) ra rb y) = (valQ rb y + A) % (2 * 2 ^ n) ∧
      ∀ q, q ∉ rb → addMap (c0 :: ct) ra rb y q = y q := by
    intro y hy
    have h := add_value c0 ct ra rb na (by omega) (by omega) y (fun q hq => by
      rw [hy q (hcb q (by simp [hq])) (by rintro rfl; exact tc (by simp [hq]))]; exact hx q (by simp [hq]))
    rw [hP, valQ_congr ra y x (fun q hq => hy q (hab q hq) (by rintro rfl; exact ta hq)), hA,
      hy c0 (hcb c0 (by simp)) (by rintro rfl; exact tc (by simp)), hx c0 (by simp)] at h
    simpa using h
  have stepM : ∀ y : Asg, (∀ q, q ∉ rb → q ≠ t → y q = x q) → valQ rb (addMap (c0 :: ct) rm rb y) = (valQ rb y + M) % (2 * 2 ^ n) ∧
      ∀ q, q ∉ rb → addMap (c0 :: ct) rm rb y q = y q := by
    intro y hy
    have h := add_value c0 ct rm rb nm (by omega) (by omega) y (fun q hq => by
      rw [hy q (hcb q (by simp [hq])) (by rintro rfl; exact tc (by simp [hq]))]; exact hx q (by simp [hq]))
    rw [hP, valQ_congr rm y x (fun q hq => hy q (hmb q hq) (by rintro rfl; exact tm hq)), hM,
      hy c0 (hcb c0 (by simp)) (by rintro rfl; exact tc (by simp)), hx c0 (by simp)] at h
    simpa using h
  have stepSA : ∀ y : Asg, (∀ q, q ∉ rb → q ≠ t → y q = x q) → (valQ rb (subMap (c0 :: ct) ra rb y) : ℤ) = (valQ rb y - A) % (2 * 2 ^ n) ∧
      ∀ q, q ∉ rb → subMap (c0 :: ct) ra rb y q = y q := by
    intro y hy
    have h := sub_value c0 ct ra rb na (by omega) (by omega) y (fun q hq => by
      rw [hy q (hcb q (by simp [hq])) (by rintro rfl; exact tc (by simp [hq]))]; exact hx q (by simp [hq]))
    rw [hPz, valQ_congr ra y x (fun q hq => hy q (hab q hq) (by rintro rfl; exact ta hq)), hA,
      hy c0 (hcb c0 (by simp)) (by rintro rfl; exact tc (by simp)), hx c0 (by simp)] at h
    simpa using h
  have stepSM : ∀ y : Asg, (∀ q, q ∉ rb → q ≠ t → y q = x q) → (valQ rb (subMap (c0 :: ct) rm rb y) : ℤ) = (valQ rb y - M) % (2 * 2 ^ n) ∧
      ∀ q, q ∉ rb → subMap (c0 :: ct) rm rb y q = y q := by
    intro y hy
    have h := sub_value c0 ct rm rb nm (by omega) (by omega) y (fun q hq => by
      rw [hy q (hcb q (by simp [hq])) (by rintro rfl; exact tc (by simp [hq]))]; exact hx q (by simp [hq]))
    rw [hPz, valQ_congr rm y x (fun q hq => hy q (hmb q hq) (by rintro rfl; exact tm hq)), hM,
      hy c0 (hcb c0 (by simp)) (by rintro rfl; exact tc (by simp)), hx c0 (by simp)] at h
    simpa using h
  have fin : ∀ (z : Asg) (v : ℕ), v < 2 * 2 ^ n → valQ rb z = v → (∀ q, q ∉ rb → z q = x q) → z = putVal rb v x := by
    intro z v hv hz hq
    funext q
    by_cases h : q ∈ rb
    · exact valQ_inj rb _ _ (hz.trans (valQ_putVal rb nb v (by rw [hP]; exact hv) x).symm) q h
    · rw [hq q h]; exact (if_neg h).symm
  have flipV : ∀ y, valQ rb (flipQ t y) = valQ rb y := fun y => valQ_congr rb _ _ fun q hq => flipQ_of_ne t q (by rintro rfl; exact tb hq) y
  have hxt : x t = false := hx t (by simp)
  -- the first two lines
  obtain ⟨v1, k1⟩ := stepA x fun _ _ _ => rfl
  rw [hB, Nat.mod_eq_of_lt (by omega)] at v1
  obtain ⟨v2, k2⟩ := stepSM _ fun q hq _ => k1 q hq
  rw [v1] at v2
  have k2' : ∀ q, q ∉ rb → subMap (c0 :: ct) rm rb (addMap (c0 :: ct) ra rb x) q = x q := fun q hq => by rw [k2 q hq, k1 q hq]
  unfold modPre
  generalize subMap (c0 :: ct) rm rb (addMap (c0 :: ct) ra rb x) = x2 at v2 k2'
  clear k2 k1 v1
  by_cases hge : M ≤ A + B
  · have v2' : valQ rb x2 = A + B - M := by
      have : ((B + A : ℕ) - M : ℤ) % (2 * 2 ^ n) = (B + A : ℕ) - M := Int.emod_eq_of_lt (by omega) (by omega)
      rw [this] at v2
      omega
    have hbit : x2 (rb.getD n 0) = false := by rw [top_bit rb n hb x2, v2']; simp; omega
    simp only [hbit, Bool.false_eq_true, if_false]
    rw [k2' t tb, hxt]
    simp only [Bool.false_eq_true, if_false, lift_ket]
    unfold modPost
    obtain ⟨v3, k3⟩ := stepSA x2 fun q hq _ => k2' q hq
    generalize subMap (c0 :: ct) ra rb x2 = x3 at v3 k3
    have v3' : valQ rb x3 = 2 * 2 ^ n + B - M := by
      rw [v2'] at v3
      have : (((A + B - M : ℕ) : ℤ) - A) % (2 * 2 ^ n) = 2 * 2 ^ n + B - M := by
        rw [← Int.add_emod_right, Int.emod_eq_of_lt (by omega) (by omega)]
        omega
      rw [this] at v3
      omega
    have hbit3 : x3 (rb.getD n 0) = true := by rw [top_bit rb n hb x3, v3']; simp; omega
    simp only [hbit3, Bool.true_eq_false, if_false]
    obtain ⟨v4, k4⟩ := stepA x3 fun q hq _ => by rw [k3 q hq, k2' q hq]
    congr 1
    refine fin _ _ ?_ ?_ fun q hq => by rw [k4 q hq, k3 q hq, k2' q hq]
    · have := Nat.mod_lt (A + B) (show 0 < M by omega)
      omega
    · rw [v4, v3', show 2 * 2 ^ n + B - M + A = (A + B - M) + 2 * 2 ^ n by omega, Nat.add_mod_right, Nat.mod_eq_of_lt (by omega),
        Nat.mod_eq_sub_mod hge, Nat.mod_eq_of_lt (by omega)]
  · have v2' : valQ rb x2 = 2 * 2 ^ n + (A + B) - M := by
      have : ((B + A : ℕ) - M : ℤ) % (2 * 2 ^ n) = 2 * 2 ^ n + (A + B) - M := by
        rw [← Int.add_emod_right, Int.emod_eq_of_lt (by omega) (by omega)]
        omega
      rw [this] at v2
      omega
    have hbit : x2 (rb.getD n 0) = true := by rw [top_bit rb n hb x2, v2']; simp; omega
    simp only [hbit, if_true]
    rw [flipQ_self, k2' t tb, hxt]
    simp only [Bool.not_false, if_true]
    have hy : ∀ q, q ∉ rb → q ≠ t → flipQ t x2 q = x q := fun q hq hqt => by rw [flipQ_of_ne t q hqt, k2' q hq]
    rw [addW_nocarry c0 ct rm rb nm (by omega) (by omega) (flipQ t x2) (fun q hq => by
        rw [hy q (hcb q (by simp [hq])) (by rintro rfl; exact tc (by simp [hq]))]; exact hx q (by simp [hq])) ?_, lift_ket]
    · obtain ⟨v3, k3⟩ := stepM (flipQ t x2) hy
      rw [flipV, v2', show 2 * 2 ^ n + (A + B) - M + M = (A + B) + 2 * 2 ^ n by omega, Nat.add_mod_right, Nat.mod_eq_of_lt (by omega)] at v3
      generalize addMap (c0 :: ct) rm rb (flipQ t x2) = x3 at v3 k3
      unfold modPost
      have hy3 : ∀ q, q ∉ rb → q ≠ t → x3 q = x q := fun q hq hqt => by rw [k3 q hq, hy q hq hqt]
      obtain ⟨v4, k4⟩ := stepSA x3 hy3
      generalize subMap (c0 :: ct) ra rb x3 = x4 at v4 k4
      have v4' : valQ rb x4 = B := by
        rw [v3] at v4
        have : (((A + B : ℕ) : ℤ) - A) % (2 * 2 ^ n) = B := by
          rw [Int.emod_eq_of_lt (by omega) (by omega)]
          push_cast; ring
        rw [this] at v4
        exact_mod_cast v4
      have hbit4 : x4 (rb.getD n 0) = false := by rw [top_bit rb n hb x4, v4']; simp; omega
      simp only [hbit4, if_true]
      obtain ⟨v5, k5⟩ := stepA (flipQ t x4) fun q hq hqt => by rw [flipQ_of_ne t q hqt, k4 q hq, hy3 q hq hqt]
      congr 1
      refine fin _ _ ?_ ?_ fun q hq => ?_
      · have := Nat.mod_lt (A + B) (show 0 < M by omega)
        omega
      · rw [v5, flipV, v4', Nat.mod_eq_of_lt (by omega), Nat.mod_eq_of_lt (by omega), Nat.add_comm]
      · rw [k5 q hq]
        by_cases hqt : q = t
        · subst hqt
          rw [flipQ_self, k4 q hq, k3 q hq, flipQ_self, k2' q hq, Bool.not_not]
        · rw [flipQ_of_ne t q hqt, k4 q hq, hy3 q hq hqt]
    · intro i h0 hi
      rw [valQ_take, valQ_take, flipV, v2', hy c0 (hcb c0 (by simp)) (by rintro rfl; exact tc (by simp)), hx c0 (by simp),
        valQ_congr rm (flipQ t x2) x (fun q hq => hy q (hmb q hq) (by rintro rfl; exact tm hq)), hM]
      have hi' := (h3.resolve_left hge) i (by omega)
      have hK : 0 < 2 ^ i := by positivity
      obtain ⟨k, hk⟩ : 2 ^ i ∣ 2 * 2 ^ n := by
        rw [← pow_succ']
        exact pow_dvd_pow 2 (by omega)
      have e : (2 * 2 ^ n + (A + B) - M + M) % 2 ^ i = (A + B) % 2 ^ i := by
        rw [show 2 * 2 ^ n + (A + B) - M + M = (A + B) + 2 ^ i * k by omega, Nat.add_mul_mod_self_left]
      rw [Nat.add_mod] at e
      have l1 := Nat.mod_lt (2 * 2 ^ n + (A + B) - M) hK
      have l2 := Nat.mod_lt M hK
      simp only [Bool.toNat_false, Nat.add_zero]
      by_contra hcon
      rw [Nat.mod_eq_sub_mod (by omega), Nat.mod_eq_of_lt (by omega)] at e
      omega

/-! ## the method -/

theorem addMod_run {s : LocalBuilder} {ra rb rm : Reg} {L : List ℕ} (hne : ra ≠ []) (hm : rm.length = ra.length) (hb : rb.length = ra.length + 1)
    (ho : Own s (ra ++ rb ++ rm ++ L)) :
    ∃ s' seg t c0 ct, Arith.addMod [ra, rb, rm] s = .ok [ra, rb, rm] s' ∧ s'.pipeline = s.pipeline ++ seg ∧
      ra.length = ct.length + 1 ∧ [ra, rb, rm, [t], c0 :: ct].flatten.Nodup ∧ Own s' (ra ++ rb ++ rm ++ L) ∧
      ∀ x, Clean s x → (∀ q ∈ t :: c0 :: ct, x q = false) ∧
        runW rotAngle seg (ket x) = lift (fun y => ket (modPost ra rb t ra.length (c0 :: ct) y))
          (let y := modPre ra rb rm t ra.length (c0 :: ct) x
           if y t = true then addW (c0 :: ct) rm rb y else ket y) := by
  have hpos := List.length_pos_iff.mpr hne
  obtain ⟨t, s1, a1, a2, a3, a4, a5, a6⟩ := makeTemp_local ho
  have a1' : (makeTempQubit : M LocalBuilder Reg) s = .ok [t] s1 := a1
  obtain ⟨rc, s2, b1, b2, -, b3, b4, b5, b6, -, b7⟩ := makeTempRegister_sim (β := LocalBuilder) (n := ra.length) hpos a2
  obtain ⟨c0, ct, rfl⟩ := List.exists_cons_of_length_pos (l := rc) (by omega)
  have hp : ((c0 :: ct) ++ (t :: (ra ++ rb ++ rm ++ L))).Perm ([] ++ [ra, rb, rm, [t], c0 :: ct].flatten ++ L) := by
    simp only [List.flatten_cons, List.flatten_nil, List.append_nil, List.nil_append]
    rw [List.perm_iff_count]
    intro q
    simp only [List.count_append, List.count_cons, List.count_nil]
    omega
  have o2 := b3.perm hp
  have hn : [ra, rb, rm, [t], c0 :: ct].flatten.Nodup := by
    have := (List.nodup_append.mp o2.left).1
    rwa [List.nil_append] at this
  obtain ⟨s3, c1, -, c2, c3⟩ := (Moves.modLines ra.length ra rb rm t c0 ct rfl hm hb (by simpa using b2.symm) hn).does s2 L rfl o2
  have hp3 : ([] ++ [ra, rb, rm, [t], c0 :: ct].flatten ++ L).Perm ([t] ++ ((c0 :: ct) ++ (ra ++ rb ++ rm ++ L))) := by
    simp only [List.flatten_cons, List.flatten_nil, List.append_nil, List.nil_append]
    rw [List.perm_iff_count]
    intro q
    simp only [List.count_append, List.count_cons, List.count_nil]
    omega
  obtain ⟨s4, d1, d2, d3, -⟩ := returnTempR_local [t] (by simp) (c2.perm hp3)
  obtain ⟨s5, e1, e2, e3, -⟩ := returnTempR_local (c0 :: ct) (by simp) d2
  obtain ⟨seg, f1, -, f3⟩ := c3.seg
  refine ⟨s5, seg, t, c0, ct, ?_, ?_, by simpa using b2.symm, hn, e2, fun x hx => ?_⟩
  · rw [Arith.addMod, if_neg (by omega), if_neg (by omega), bind_ok a1', bind_ok b1]
    have := bind_ok (f := fun rs => (match rs with
      | [ra, rb, rm, rt, rc] => do
        returnTemp rt
        returnTemp rc
        pure [ra, rb, rm]
      | _ => throw .panic : M LocalBuilder _)) c1
    refine this.trans ?_
    show (do
        returnTemp [t]
        returnTemp (c0 :: ct)
        pure [ra, rb, rm] : M LocalBuilder _) s3 = _
    have d1' : (returnTemp [t] : M LocalBuilder Unit) s3 = .ok () s4 := d1
    have e1' : (returnTemp (c0 :: ct) : M LocalBuilder Unit) s4 = .ok () s5 := e1
    rw [bind_ok d1', bind_ok e1']
    rfl
  · rw [e3, d3]
    have b4' : s2.pipeline = s1.pipeline := b4
    exact f1.trans (by show s2.pipeline ++ seg = _; rw [b4', a3])
  · obtain ⟨g1, g2⟩ := a6 x hx
    obtain ⟨g3, g4⟩ := b7 x g1
    refine ⟨fun q hq => ?_, ?_⟩
    · rcases List.mem_cons.mp hq with rfl | hq
      · exact g2
      · exact g4 q hq
    · rw [(f3 x g3).1]
      simp

end Verif
