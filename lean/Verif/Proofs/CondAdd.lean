import Verif.Proofs.CondCarry
import Verif.Proofs.Moves

/-! # `add` inside conditions -/

namespace Verif
open Classical Complex RegOps CircuitBuilder TempBuilder Rooted

theorem carryW_keeps (c a b d : ℕ) (x : Asg) : On {y | ∀ q, q ≠ d → y q = x q} (carryW c a b d x) := by
  unfold carryW
  split
  · refine on_iff.mpr fun y hy q hq => ?_
    exact on_iff.mp (gate1_keeps hq wMat x) y hy
  · exact On.ket fun _ _ => rfl

theorem carryW_low (z : Asg) (hz : ∀ i, 4 ≤ i → z i = false) : On {y : Asg | ∀ i, 4 ≤ i → y i = false} (carryW 0 1 2 3 z) :=
  (carryW_keeps 0 1 2 3 z).mono fun y hy i hi => by rw [hy i (by omega)]; exact hz i hi

theorem carryW_carryW (c a b d : ℕ) (hn : [c, a, b, d].Nodup) (x : Asg) : lift (carryW c a b d) (carryW c a b d x) = ket x := by
  simp only [List.nodup_cons, List.mem_cons, List.not_mem_nil, or_false, not_or] at hn
  obtain ⟨⟨n1, n2, n3⟩, ⟨n4, n5⟩, n6, -⟩ := hn
  by_cases h : maj (x c) (x a) (x b) = true
  · have e : lift (carryW c a b d) (gateW [d] wMat (ket x)) = gateW [d] wMat (gateW [d] wMat (ket x)) := by
      have hon := carryW_keeps c a b d x
      rw [show carryW c a b d x = gateW [d] wMat (ket x) from if_pos h] at hon
      refine hon.agree fun y hy => ?_
      rw [lift_ket]
      exact if_pos (by rw [hy c n3, hy a n5, hy b n6]; exact h)
    rw [show carryW c a b d x = gateW [d] wMat (ket x) from if_pos h, e, w_w]
  · have e : carryW c a b d x = ket x := if_neg h
    rw [e, lift_ket, e]

theorem move_carryW (c a b d : ℕ) (hn : [c, a, b, d].Nodup) (x : Asg) : moveW [c, a, b, d] (carryW 0 1 2 3) x = carryW c a b d x := by
  have p0 : pull [c, a, b, d] x 0 = x c := rfl
  have p1 : pull [c, a, b, d] x 1 = x a := rfl
  have p2 : pull [c, a, b, d] x 2 = x b := rfl
  have p3 : pull [c, a, b, d] x 3 = x d := rfl
  have hself : emb [c, a, b, d] x (pull [c, a, b, d] x) = x := emb_pull _ _
  rw [moveW_eq]
  unfold carryW
  rw [p0, p1, p2]
  split
  · rw [gate1_ket, gate1_ket, map_add, map_smul, map_smul, embW_ket, embW_ket, p3]
    have e : ∀ v, emb [c, a, b, d] x (setQ 3 v (pull [c, a, b, d] x)) = setQ d v x := by
      intro v
      funext q
      by_cases hq : q = d
      · subst hq
        have := emb_getD [c, a, b, q] hn x (setQ 3 v (pull [c, a, b, q] x)) 3 (by simp)
        rw [show [c, a, b, q].getD 3 0 = q from rfl] at this
        rw [this]
        unfold setQ
        rw [Function.update_self, Function.update_self]
      · rw [show setQ d v x q = x q from Function.update_of_ne hq _ _]
        conv_rhs => rw [← hself]
        unfold emb
        split
        · rename_i hm
          refine Function.update_of_ne (fun h3 => hq ?_) _ _
          have := List.getElem_idxOf (List.idxOf_lt_length_of_mem hm)
          simp only [h3] at this
          exact this.symm
        · rfl
    rw [e, e]
  · rw [embW_ket, hself]

theorem Moves.carryInv {β : Type} [Recursive β] [Rooted β] [SubSim β] {cs : List Reg} (hc : cs ≠ []) (c a b d : ℕ) :
    Moves rotAngle cs (Arith.carryInv [[c], [a], [b], [d]] : M β _) [[c], [a], [b], [d]] [c, a, b, d] (carryW c a b d) where
  keeps x := (carryW_keeps c a b d x).mono fun y hy q hq => hy q (by simp at hq; tauto)
  does s L hs ho := by
    have hn : [c, a, b, d].Nodup := (List.nodup_append.mp (List.nodup_append.mp ho.left).1).2.1
    obtain ⟨p, p1, p2, p3, p4⟩ := invertSub_condable carrySeg carrySeg_condable
    have hb : buildSub ([[c], [a], [b], [d]].map List.length) (Arith.carry (β := LocalBuilder)) = .ok carrySeg :=
      buildSub_ok (a := [[0], [1], [2], [3]]) (b := ⟨carrySeg, 4, [], 0⟩) (by simp) carry_run
    have hm : maxIndex p = some 3 := by
      rw [maxIndex_congr p carrySeg p3]
      krfl
    have h := applySub_cond (s := s) (L := L) (r := [c, a, b, d]) hs hc (by simp) hm (by simp) p2 ho (carryW 0 1 2 3) (fun z hz => ⟨by
      have hA : runW rotAngle (objects condObj carrySeg) = lift (carryW 0 1 2 3) := wave_ext fun y => by
        rw [carrySeg_ket, lift_ket]
      have := p4 rotAngle (carryW 0 1 2 3 z)
      rwa [hA, carryW_carryW 0 1 2 3 (by decide)] at this, carryW_low z hz⟩)
    obtain ⟨s', h1, h2⟩ := h
    have := (inverter_of (rs := [[c], [a], [b], [d]]) (by simp) (by simp) hn hb p1 (s := s) (s' := s') h1).2
    refine Does.congrU ⟨s', this, h2⟩ fun x _ => ?_
    split
    · rw [move_carryW c a b d hn]
    · rfl

/-! ## the adder -/

/-- the action of `add` inside conditions that hold -/
noncomputable def addW : Reg → Reg → Reg → Asg → Wave
  | [c], [a], [b, b'], x => ket (sumMap c a b (carryMap c a b b' x))
  | c :: c' :: cs, a :: as, b :: bs, x =>
    lift (fun y => ket (sumMap c a b y)) (lift (carryW c a b c') (addW (c' :: cs) as bs (carryMap c a b c' x)))
  | _, _, _, x => ket x

theorem addW_keeps (c a b : Reg) (x : Asg) : On {y | ∀ q, q ∉ c.tail → q ∉ b → y q = x q} (addW c a b x) := by
  fun_induction addW c a b x with
  | case1 c a b b' x => exact On.ket fun q _ hq => addMap_keeps [c] [a] [b, b'] x q (by simp) hq
  | case2 c c' cs a as b bs x ih =>
    refine On.map (S := {y | ∀ q, q ∉ c' :: cs → q ∉ b :: bs → y q = x q}) ?_ _ fun y hy => ?_
    · refine On.map (S := {y | ∀ q, q ∉ c' :: cs → q ∉ b :: bs → y q = x q}) (ih.mono fun y hy q h1 h2 => ?_) _ fun y hy => ?_
      · simp only [List.mem_cons, not_or] at h1 h2
        rw [hy q (by simpa using h1.2) h2.2, carryMap_keeps _ _ _ _ _ _ h1.1]
      · rw [lift_ket]
        refine (carryW_keeps c a b c' y).mono fun z hz q h1 h2 => ?_
        rw [hz q (by simp only [List.mem_cons, not_or] at h1; exact h1.1), hy q h1 h2]
    · rw [lift_ket]
      refine On.ket fun q h1 h2 => ?_
      rw [sumMap_keeps _ _ _ _ _ (by simp only [List.mem_cons, not_or] at h2; exact h2.1)]
      exact hy q h1 h2
  | case3 => exact On.ket fun _ _ _ => rfl

theorem Moves.addF {β : Type} [Recursive β] [Rooted β] [SubSim β] {cs : List Reg} (hc : cs ≠ []) (fuel : ℕ) (c0 : ℕ) (ct a b : Reg)
    (hf : ct.length < fuel) (ha : a.length = ct.length + 1) (hb : b.length = ct.length + 2) :
    Moves rotAngle cs (Arith.addF fuel [c0 :: ct, a, b] : M β _) [c0 :: ct, a, b] [c0 :: ct, a, b].flatten (addW (c0 :: ct) a b) := by
  induction fuel generalizing c0 ct a b with
  | zero => omega
  | succ fuel ih =>
    have hk : ∀ x, On {y | ∀ q, q ∉ [c0 :: ct, a, b].flatten → y q = x q} (addW (c0 :: ct) a b x) := by
      intro x
      refine (addW_keeps _ _ _ x).mono fun y hy q hq => ?_
      simp only [List.flatten_cons, List.flatten_nil, List.append_nil, List.mem_append, List.mem_cons, not_or] at hq
      exact hy q hq.1.2 hq.2.2
    have hr : ∀ r ∈ [c0 :: ct, a, b], r ≠ [] := by
      intro r hr
      simp only [List.mem_cons, List.not_mem_nil, or_false] at hr
      rcases hr with rfl | rfl | rfl
      · simp
      · rintro rfl; simp at ha
      · rintro rfl; simp at hb
    unfold Arith.addF
    cases ct with
    | nil =>
      obtain ⟨a0, rfl⟩ := List.length_eq_one_iff.mp ha
      obtain ⟨b0, b1, rfl⟩ := List.length_eq_two.mp hb
      rw [if_pos (by simp)]
      refine Moves.program hr hk fun hn => ?_
      have v1 : ValidGroups [[c0], [a0], [b0, b1]] [[(0, none)], [(1, none)], [(2, some [0])], [(2, some [1])]] :=
        valid_shape (rs' := [[0], [1], [2, 3]]) rfl ⟨by decide, by decide, by decide, by unfold HasPos; decide⟩
      have v2 : ValidGroups [[c0], [a0], [b0, b1]] [[(0, none)], [(1, none)], [(2, some [0])]] :=
        valid_shape (rs' := [[0], [1], [2, 3]]) rfl ⟨by decide, by decide, by decide, by unfold HasPos; decide⟩
      have h1 : Moves rotAngle cs _ _ _ _ := Moves.lines_nil (β := β) (rs := [[c0], [a0], [b0, b1]])
      have h2 := Moves.lines_map hn v2 (as := [[c0], [a0], [b0]]) rfl (Maps.sum cs c0 a0 b0) h1
      have h3 := Moves.lines_map hn v1 (as := [[c0], [a0], [b0], [b1]]) rfl (Maps.carry cs c0 a0 b0 b1) h2
      exact h3.congr fun x => rfl
    | cons c1 ct =>
      obtain ⟨a0, as, rfl⟩ := List.exists_cons_of_length_pos (l := a) (by omega)
      obtain ⟨b0, bs, rfl⟩ := List.exists_cons_of_length_pos (l := b) (by omega)
      simp only [List.length_cons, Nat.add_right_cancel_iff] at ha hb hf
      rw [if_neg (by simp), if_pos (by simp [ha, hb])]
      refine Moves.program hr hk fun hn => ?_
      have hlen : (c0 :: c1 :: ct).length = ct.length + 2 := rfl
      rw [hlen, show ct.length + 2 - 1 = ct.length + 1 from rfl]
      obtain ⟨v1, v2, v3, e⟩ := add_groups c0 c1 a0 b0 ct as bs ha hb
      have h1 : Moves rotAngle cs _ _ _ _ := Moves.lines_nil (β := β) (rs := [c0 :: c1 :: ct, a0 :: as, b0 :: bs])
      have h2 := Moves.lines_map hn v3 (as := [[c0], [a0], [b0]]) rfl (Maps.sum cs c0 a0 b0) h1
      have h3 := Moves.lines_plain hn v1 (as := [[c0], [a0], [b0], [c1]]) rfl (Moves.carryInv hc c0 a0 b0 c1) h2
      have h4 := Moves.lines_plain hn v2 e (ih c1 ct as bs (by omega) ha hb) h3
      have h5 := Moves.lines_map hn v1 (as := [[c0], [a0], [b0], [c1]]) rfl (Maps.carry cs c0 a0 b0 c1) h4
      refine h5.congr fun x => ?_
      show _ = lift _ (lift _ _)
      rw [← LinearMap.comp_apply]
      congr 1
      exact wave_ext fun y => by rw [lift_ket, LinearMap.comp_apply, lift_ket]

theorem Moves.add {β : Type} [Recursive β] [Rooted β] [SubSim β] {cs : List Reg} (hc : cs ≠ []) (c0 : ℕ) (ct a b : Reg)
    (ha : a.length = ct.length + 1) (hb : b.length = ct.length + 2) :
    Moves rotAngle cs (Arith.add [c0 :: ct, a, b] : M β _) [c0 :: ct, a, b] [c0 :: ct, a, b].flatten (addW (c0 :: ct) a b) :=
  Moves.addF hc _ c0 ct a b (by simp) ha hb

end Verif
