import Verif.Proofs.CondGamma
import Verif.Props.Times

/-!
# Property C84: `exp_mod`

The comment of `exp_mod` promises `(p * a^b) mod m` and states no condition on `a` and `p`. Refuted: an exponent 0 gives `p`, not
`p mod m`. `C84_zero_partial` is the exact result for an exponent of one qubit holding 0, for all sizes of the other registers and all
values; it is the promised one if and only if `p < m`. The result for the other exponents goes through `times_mod`, see C72 and C73.
-/

namespace Verif
open Classical Complex RegOps CircuitBuilder Rooted

theorem copyMap_get (as bs : Reg) (hl : as.length = bs.length) (hn : (as ++ bs).Nodup) (x : Asg) (i : ℕ) (hi : i < bs.length) :
    copyMap as bs x (bs[i]) = xor (x bs[i]) (x (as[i]'(by omega))) := by
  induction as generalizing bs x i with
  | nil => simp at hl; omega
  | cons a as ih =>
    cases bs with
    | nil => simp at hi
    | cons b bs =>
      have h1 : b ∉ bs ∧ b ≠ a ∧ b ∉ as ∧ a ∉ bs ∧ (as ++ bs).Nodup := by
        simp only [List.cons_append, List.nodup_cons, List.mem_append, List.mem_cons, List.nodup_append] at hn ⊢
        grind
      obtain ⟨k1, k2, k3, k4, k5⟩ := h1
      unfold copyMap
      cases i with
      | zero => simp [copyMap_keeps _ _ _ _ k1]
      | succ i =>
        have hi' : i < bs.length := by simpa using hi
        simp only [List.getElem_cons_succ]
        rw [ih bs (by simpa using hl) k5 _ i hi', Function.update_of_ne, Function.update_of_ne]
        · intro e; exact k3 (e ▸ List.getElem_mem _)
        · intro e; exact k1 (e ▸ List.getElem_mem _)

theorem copyMap_neg {c as bs : Reg} (h1 : ∀ q ∈ as, q ∉ c) (h2 : ∀ q ∈ bs, q ∉ c) (m : ℕ) (x : Asg) :
    negMask c m (copyMap as bs (negMask c m x)) = copyMap as bs x := by
  induction as generalizing bs x with
  | nil => simp [copyMap, Maps.negMask_negMask]
  | cons a as ih =>
    cases bs with
    | nil => simp [copyMap, Maps.negMask_negMask]
    | cons b bs =>
      unfold copyMap
      have e : Function.update (negMask c m x) b (xor (negMask c m x b) (negMask c m x a)) = negMask c m (Function.update x b (xor (x b) (x a))) := by
        rw [Maps.negMask_keeps c m _ b (h2 b (by simp)), Maps.negMask_keeps c m _ a (h1 a (by simp))]
        funext q
        by_cases hq : q = b
        · subst hq
          rw [Maps.negMask_keeps c m _ q (h2 q (by simp))]
          simp
        · rw [Function.update_of_ne hq]
          unfold negMask
          rw [Function.update_of_ne hq]
      rw [e, ih (fun q hq => h1 q (by simp [hq])) (fun q hq => h2 q (by simp [hq]))]

/-- the two lines of `exp_mod` for an exponent of one qubit that is 0 -/
theorem Sure.expZeroF (d : ℕ) {ra rm rp re : Reg} {b : ℕ} (hm : rm ≠ []) (ha : ra.length = rm.length + 1) (hp : rp.length = rm.length + 1)
    (he : re.length = rm.length + 1) (hn : [ra, [b], rm, rp, re].flatten.Nodup) :
    Sure rotAngle [] {x | x b = false} (Arith.expModF (d + 1) [ra, [b], rm, rp, re] : M LocalBuilder _) [ra, [b], rm, rp, re] [ra, [b], rm, rp, re].flatten
      (fun x => ket (copyMap rp re x)) ∅ := by
  have hn0 := List.length_pos_iff.mpr hm
  have h0 : ra ≠ [] := List.length_pos_iff.mp (by omega)
  have h3 : rp ≠ [] := List.length_pos_iff.mp (by omega)
  have h4 : re ≠ [] := List.length_pos_iff.mp (by omega)
  have hb : b ∉ rp ∧ b ∉ re := by
    simp only [List.flatten_cons, List.flatten_nil, List.append_nil, List.nodup_append, List.nodup_cons, List.mem_cons, List.mem_append] at hn ⊢
    grind
  obtain ⟨b3, b4⟩ := hb
  have hr : ∀ r ∈ [ra, [b], rm, rp, re], r ≠ [] := by simp [h0, hm, h3, h4]
  rw [Arith.expModF, if_neg (by omega), if_neg (by omega), if_neg (by omega), if_pos (by simp)]
  obtain ⟨rs, hrs⟩ : ∃ rs, rs = [ra, [b], rm, rp, re] := ⟨_, rfl⟩
  rw [← hrs] at hn hr ⊢
  have g0 : groupReg rs [(0, none)] = ra := by rw [groupReg_all, hrs]; rfl
  have g1 : groupReg rs [(1, some [0])] = [b] := by rw [groupReg_one, hrs]; rfl
  have g2 : groupReg rs [(2, none)] = rm := by rw [groupReg_all, hrs]; rfl
  have g3 : groupReg rs [(3, none)] = rp := by rw [groupReg_all, hrs]; rfl
  have g4 : groupReg rs [(4, none)] = re := by rw [groupReg_all, hrs]; rfl
  have v1 : ValidGroups rs [[(1, some [0])], [(3, none)], [(4, none)]] :=
    valid_sels rs [(1, some [0]), (3, none), (4, none)] (by simp) (by rw [hrs]; simp [SelOK, h3, h4])
  have v2 : ValidGroups rs [[(1, some [0])], [(0, none)], [(3, none)], [(2, none)], [(4, none)]] :=
    valid_sels rs [(1, some [0]), (0, none), (3, none), (2, none), (4, none)] (by simp) (by rw [hrs]; simp [SelOK, h0, hm, h3, h4])
  have m1 : Moves rotAngle [[b]] (Arith.copy [rp, re] : M (Conditioned LocalBuilder) _) [rp, re] [rp, re].flatten (fun x => ket (copyMap rp re x)) := by
    simpa using (Maps.copy (ang := rotAngle) (β := Conditioned LocalBuilder) [[b]] rp re h3 (by omega)).moves
  have m2 := Quiet.timesMod (β := Conditioned LocalBuilder) (cs := [[b]]) ra rp rm re h3 hm ha he
  have hneg : ∀ x : Asg, lift (fun y => ket (negMask [b] 0 y)) (ket (copyMap rp re (negMask [b] 0 x))) = ket (copyMap rp re x) := fun x => by
    rw [lift_ket, copyMap_neg (c := [b]) (fun q hq e => b3 (List.mem_singleton.mp e ▸ hq)) (fun q hq e => b4 (List.mem_singleton.mp e ▸ hq))]
  have k0 : Sure rotAngle [] {x | x b = false} _ _ _ _ _ := Sure.pure (β := LocalBuilder) (full rs) rs.flatten
  have k1 : Sure rotAngle [] {x | x b = false} _ _ _ _ _ := Sure.lines_cons (S' := {x | x b = false}) (ls := []) hn
    (l := .control none Arith.timesMod [[(1, some [0])], [(0, none)], [(3, none)], [(2, none)], [(4, none)]]) v2 (Q := [b] ++ [ra, rp, rm, re].flatten)
    (U := ket) (T := ∅) (by
      have k1 : Sure rotAngle [] {x | x b = false} (Conditioned.conditioned [b] (Arith.timesMod [ra, rp, rm, re]) : M LocalBuilder _) _ _ ket ∅ :=
        (Sure.conditioned (by simp) m2).congr (fun x hx => ⟨by simpa [Idle] using hx, rfl⟩) (by simp)
      have k2 := Sure.bind k1 (f := fun p : List Reg × Reg => Pure.pure (p.2 :: p.1)) (S' := {x | x b = false}) (fun x hx => On.ket hx) (Sure.pure _ _)
      refine Sure.cast (k2.congr (fun x hx => ⟨hx, lift_ket_ket x⟩) (by simp)) ?_ (by simp [Line.groups, g0, g1, g2, g3, g4]) rfl
      unfold Line.call
      simp only [List.map_cons, List.map_nil, g0, g1, g2, g3, g4, pure_bind]) (by simp [Line.groups, g0, g1, g2, g3, g4])
    (fun x hx => On.ket hx) k0
  have l2 : Moves rotAngle [] (Line.call rs (.control (some 0) Arith.copy [[(1, some [0])], [(3, none)], [(4, none)]] : Line LocalBuilder))
      ([[(1, some [0])], [(3, none)], [(4, none)]].map (groupReg rs)) ([[(1, some [0])], [(3, none)], [(4, none)]].map (groupReg rs)).flatten
      (fun x => if valQ [b] x = 0 % 2 ^ [b].length then ket (copyMap rp re x) else ket x) :=
    Moves.control_masked 0 g1 (as := [rp, re]) (by simp only [List.map_cons, List.map_nil, g3, g4]) (by simp) (by simp) hneg m1
  have l3 : Sure rotAngle [] {x | x b = false} (Line.call rs (.control (some 0) Arith.copy [[(1, some [0])], [(3, none)], [(4, none)]] : Line LocalBuilder))
      ([[(1, some [0])], [(3, none)], [(4, none)]].map (groupReg rs)) ([[(1, some [0])], [(3, none)], [(4, none)]].map (groupReg rs)).flatten
      (fun x => ket (copyMap rp re x)) ∅ :=
    l2.sure.congr (fun x hx => ⟨trivial, by
      have hx' : x b = false := hx
      simp [valQ, hx']⟩) (by simp)
  have k2 := Sure.lines_cons (S := {x | x b = false}) (S' := {x | x b = false}) hn
    (l := .control (some 0) Arith.copy [[(1, some [0])], [(3, none)], [(4, none)]]) v1 l3 rfl (fun x hx => by
        have hx' : x b = false := hx
        refine On.ket ?_
        rw [Set.mem_setOf_eq, copyMap_keeps _ _ _ _ b4]
        exact hx') k1
  have k3 : Sure rotAngle [] {x | x b = false} (Verif.program rs _ : M LocalBuilder _) rs rs.flatten _ _ :=
    fun s L hs ho => DoesOn.program hr hn (k2 s L hs ho)
  refine k3.congr (fun x hx => ⟨hx, ?_⟩) (by simp)
  simp [lift_ket]

theorem Sure.expZero {ra rm rp re : Reg} {b : ℕ} (hm : rm ≠ []) (ha : ra.length = rm.length + 1) (hp : rp.length = rm.length + 1)
    (he : re.length = rm.length + 1) (hn : [ra, [b], rm, rp, re].flatten.Nodup) :
    Sure rotAngle [] {x | x b = false} (Arith.expMod [ra, [b], rm, rp, re] : M LocalBuilder _) [ra, [b], rm, rp, re] [ra, [b], rm, rp, re].flatten
      (fun x => ket (copyMap rp re x)) ∅ := Sure.expZeroF _ hm ha hp he hn

end Verif

namespace Verif.Props
open Classical Complex RegOps CircuitBuilder Rooted

/-- C84 as documented: `|a>|b>|m>|p>|0>` to `|a>|b>|m>|p>|(p*a^b) mod m>`. -/
def C84_claim : Prop :=
  ∀ (s : LocalBuilder) (ra rb rm rp re : Reg) (L : List ℕ) (x : Asg), rb ≠ [] → rm ≠ [] → ra.length = rm.length + 1 → rp.length = rm.length + 1 →
    re.length = rm.length + 1 → Own s ([ra, rb, rm, rp, re].flatten ++ L) → Clean s x → 0 < valQ rm x → valQ re x = 0 →
    Sends rotAngle (Arith.expMod [ra, rb, rm, rp, re]) s [ra, rb, rm, rp, re] x (putVal re ((valQ rp x * valQ ra x ^ valQ rb x) % valQ rm x) x)

/-- An exponent of one qubit holding 0: the register of the result, holding 0 before, holds `p`, everything else is as before. -/
theorem C84_zero_partial (s : LocalBuilder) (ra rm rp re : Reg) (b : ℕ) (L : List ℕ) (x : Asg) (hm : rm ≠ []) (ha : ra.length = rm.length + 1)
    (hp : rp.length = rm.length + 1) (he : re.length = rm.length + 1) (ho : Own s ([ra, [b], rm, rp, re].flatten ++ L)) (hx : Clean s x)
    (hb : x b = false) (h0 : valQ re x = 0) :
    Sends rotAngle (Arith.expMod [ra, [b], rm, rp, re]) s [ra, [b], rm, rp, re] x (putVal re (valQ rp x) x) := by
  have hn := (List.nodup_append.mp ho.left).1
  obtain ⟨s', d1, -, d2, -, -, seg, d3, -, -, d5⟩ := Sure.expZero hm ha hp he hn s L rfl ho
  refine ⟨s', seg, d1, d3, ?_⟩
  refine (d5 x hb hx).1.trans (congrArg ket ?_)
  have hpe : (rp ++ re).Nodup := by
    simp only [List.flatten_cons, List.flatten_nil, List.append_nil] at hn
    exact hn.sublist ((List.sublist_append_right rm _).trans ((List.sublist_append_right [b] _).trans (List.sublist_append_right ra _)))
  have hz : ∀ q ∈ re, x q = false := by
    have := valQ_inj re x (fun _ => false) (by
      rw [h0]
      clear * -
      induction re with
      | nil => rfl
      | cons q r ih => simp [valQ, ← ih])
    exact this
  funext q
  by_cases hq : q ∈ re
  · obtain ⟨i, hi, rfl⟩ := List.getElem_of_mem hq
    rw [copyMap_get rp re (by omega) hpe x i hi, hz _ (List.getElem_mem _)]
    unfold putVal
    rw [if_pos (List.getElem_mem _), List.Nodup.idxOf_getElem (List.nodup_append.mp hpe).2.1, testBit_valQ, dif_pos (by omega)]
    simp
  · rw [copyMap_keeps _ _ _ _ hq]
    exact (if_neg hq).symm

/-- This is what the comment promises if and only if `p < m`. -/
theorem C84_zero_right_iff_partial (s : LocalBuilder) (ra rm rp re : Reg) (b : ℕ) (L : List ℕ) (x : Asg) (hm : rm ≠ []) (ha : ra.length = rm.length + 1)
    (hp : rp.length = rm.length + 1) (he : re.length = rm.length + 1) (ho : Own s ([ra, [b], rm, rp, re].flatten ++ L)) (hx : Clean s x)
    (hb : x b = false) (h0 : valQ re x = 0) (h1 : 0 < valQ rm x) :
    Sends rotAngle (Arith.expMod [ra, [b], rm, rp, re]) s [ra, [b], rm, rp, re] x
      (putVal re ((valQ rp x * valQ ra x ^ valQ [b] x) % valQ rm x) x) ↔ valQ rp x < valQ rm x := by
  have h := C84_zero_partial s ra rm rp re b L x hm ha hp he ho hx hb h0
  have e : valQ [b] x = 0 := by simp [valQ, hb]
  rw [e, pow_zero, mul_one]
  constructor
  · rintro ⟨s2, seg2, d1, d2, d3⟩
    obtain ⟨s1, seg1, c1, c2, c3⟩ := h
    obtain rfl : s1 = s2 := by
      have := c1.symm.trans d1
      injection this
    obtain rfl : seg1 = seg2 := List.append_cancel_left (c2.symm.trans d2)
    have e2 := Finsupp.single_left_injective one_ne_zero (c3.symm.trans d3)
    have hre : re.Nodup := by
      have hn := (List.nodup_append.mp ho.left).1
      simp only [List.flatten_cons, List.flatten_nil, List.append_nil, List.nodup_append] at hn
      tauto
    have e3 := congrArg (valQ re) e2
    have l1 := valQ_lt rp x
    have l2 := Nat.mod_lt (valQ rp x) h1
    rw [hp, ← he] at l1
    rw [valQ_putVal re hre _ l1, valQ_putVal re hre _ (lt_of_le_of_lt (Nat.mod_le _ _) l1)] at e3
    omega
  · intro h2
    rwa [Nat.mod_eq_of_lt h2]

theorem tenQubits_own84 : Own (⟨[], 10, [], 0⟩ : LocalBuilder) ([[0, 1], [2], [3], [4, 5], [6, 7]].flatten ++ [8, 9]) := ⟨by simp, by decide, by decide⟩

/-- `3 * 2^0` modulo 1 -/
theorem C84_refuted : ¬ C84_claim := by
  intro h
  have := (C84_zero_right_iff_partial ⟨[], 10, [], 0⟩ [0, 1] [3] [4, 5] [6, 7] 2 [8, 9] (ones [1, 3, 4, 5]) (by simp) rfl rfl rfl tenQubits_own84
    (ones_clean 10 _ (by simp)) (by simp [ones]) (by simp [ones, valQ]) (by simp [ones, valQ])).mp
      (h _ _ _ _ _ _ [8, 9] _ (by simp) (by simp) rfl rfl rfl tenQubits_own84 (ones_clean 10 _ (by simp)) (by simp [ones, valQ]) (by simp [ones, valQ]))
  simp [ones, valQ] at this

/-- `2 * 1^0` modulo 3 is right -/
example : Sends rotAngle (Arith.expMod [[0, 1, 2], [3], [4, 5], [6, 7, 8], [9, 10, 11]]) (⟨[], 12, [], 0⟩ : LocalBuilder)
    [[0, 1, 2], [3], [4, 5], [6, 7, 8], [9, 10, 11]] (ones [0, 4, 5, 7]) (putVal [9, 10, 11] 2 (ones [0, 4, 5, 7])) :=
  C84_zero_partial _ [0, 1, 2] [4, 5] [6, 7, 8] [9, 10, 11] 3 [] _ (by simp) rfl rfl rfl ⟨by simp, by decide, by decide⟩ (ones_clean 12 _ (by simp))
    (by simp [ones]) (by simp [ones, valQ])

end Verif.Props
