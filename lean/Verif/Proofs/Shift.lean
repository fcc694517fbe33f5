import Verif.Proofs.Add2

/-! # Shifts and copies -/

namespace Verif
open Classical RegOps CircuitBuilder Rooted

section
variable {ang : Rot → ℝ} {β : Type} [Recursive β] [Rooted β] [Sim β] {cs : List Reg}

theorem Maps.unwrap {α : Type} {m : M β α} {a : α} {Q : List ℕ} {φ : Asg → Asg} (h : Maps ang cs m a Q φ) : Maps ang cs (unwrapM m) a Q φ where
  keeps := h.keeps
  does s L hs ho := by
    obtain ⟨s', h1, h2⟩ := h.does s L hs ho
    exact ⟨s', unwrapM_ok h1, h2⟩

theorem swapQ_keeps (a b : ℕ) (x : Asg) (q : ℕ) (ha : q ≠ a) (hb : q ≠ b) : swapQ a b x q = x q := by
  unfold swapQ; rw [if_neg ha, if_neg hb]

theorem Maps.swap1 (cs : List Reg) (a b : ℕ) : Maps ang cs (swap [a] [b] : M β _) ([a], [b]) [a, b] (swapQ a b) where
  keeps x q hq := by
    simp only [List.mem_cons, List.not_mem_nil, or_false, not_or] at hq
    exact swapQ_keeps a b x q hq.1 hq.2
  does s L hs ho := (sim_swap (ra := [a]) (rb := [b]) hs (by simp) rfl ho).congrU fun x _ => rfl

/-- one step of `rshift` -/
theorem Maps.rshiftStep (cs : List Reg) (r : Reg) (hn : r.Nodup) (i j : ℕ) (hi : i < r.length) (hj : j < r.length) (hij : i ≠ j)
    (he : j = if i = 0 then r.length - 1 else i - 1) :
    Maps ang cs (Arith.rshiftStep r.length (r.map fun q => some [q]) i : M β _) (r.map fun q => some [q]) r (swapQ r[i] r[j]) := by
  have hne : r[i] ≠ r[j] := fun h => hij (hn.getElem_inj_iff.mp h)
  have h1 := (Maps.swap1 (ang := ang) (β := β) cs r[i] r[j]).unwrap
  have h2 := (h1.map (f := fun p : Reg × Reg => ((((r.map fun q => some [q]).set i none).set j none).set i (some p.1)).set j (some p.2))
    (c := r.map fun q => some [q]) ?_).mono (Q' := r) (by simpa using hne) (by simp)
  · refine h2.cast ?_ rfl
    unfold Arith.rshiftStep
    have e1 : ((r.map fun q => some [q])[i]?).join = some [r[i]] := by
      rw [List.getElem?_map, List.getElem?_eq_getElem hi]; rfl
    have e2 : ((((r.map fun q => some [q]).set i none))[j]?).join = some [r[j]] := by
      rw [List.getElem?_set_ne hij, List.getElem?_map, List.getElem?_eq_getElem hj]; rfl
    rw [e1, unwrapO_some, pure_bind]
    simp only [← he]
    rw [e2, unwrapO_some, pure_bind]
  · refine List.ext_getElem (by simp) fun k h1 h2 => ?_
    simp only [List.length_map] at h2
    simp only [List.getElem_set, List.getElem_map]
    split
    · rename_i h; subst h; rfl
    · split
      · rename_i h; subst h; rfl
      · rename_i h3 h4
        rfl

/-- the swaps at the positions `m - 1, …, 0` -/
def shifts (r : Reg) : ℕ → Asg → Asg
  | 0, x => x
  | m + 1, x => shifts r m (swapQ (r.getD m 0) (r.getD (if m = 0 then r.length - 1 else m - 1) 0) x)

theorem shifts_keeps (r : Reg) (m : ℕ) (hm : m < r.length) (x : Asg) (q : ℕ) (hq : q ∉ r) : shifts r m x q = x q := by
  induction m generalizing x with
  | zero => rfl
  | succ m ih =>
    have hd : ∀ i < r.length, q ≠ r.getD i 0 := by
      rintro i hi rfl
      rw [List.getD_eq_getElem _ _ hi] at hq
      exact hq (List.getElem_mem hi)
    unfold shifts
    rw [ih (by omega), swapQ_keeps _ _ _ _ (hd m (by omega)) (hd _ (by split <;> omega))]

theorem Maps.shifts (cs : List Reg) (r : Reg) (hn : r.Nodup) (m : ℕ) (hm : m < r.length) :
    Maps ang cs ((List.range m).reverse.foldlM (Arith.rshiftStep r.length) (r.map fun q => some [q]) : M β _) (r.map fun q => some [q]) r
      (shifts r m) := by
  induction m with
  | zero => exact Maps.pure _
  | succ m ih =>
    rw [List.range_succ, List.reverse_append, List.reverse_singleton, List.singleton_append, List.foldlM_cons]
    obtain ⟨j, hj⟩ : ∃ j, j = if m = 0 then r.length - 1 else m - 1 := ⟨_, rfl⟩
    have hjl : j < r.length := by rw [hj]; split <;> omega
    refine ((Maps.rshiftStep cs r hn m j (by omega) hjl (by rw [hj]; split <;> omega) hj).bind (ih (by omega))).congr fun x => ?_
    conv_rhs => unfold Verif.shifts
    rw [← hj, List.getD_eq_getElem _ _ (by omega : m < r.length), List.getD_eq_getElem _ _ hjl]

/-- the value of position `k` after the swaps comes from here -/
theorem shifts_at (r : Reg) (hn : r.Nodup) (m : ℕ) (hm : m < r.length) (x : Asg) (k : ℕ) (hk : k < r.length) :
    shifts r m x (r.getD k 0) = x (r.getD (if m = 0 then k else if k = 0 then r.length - 1 else if k = r.length - 1 then m - 1 else
      if k < m then k - 1 else k) 0) := by
  have hinj : ∀ i j, i < r.length → j < r.length → (r.getD i 0 = r.getD j 0 ↔ i = j) := by
    intro i j hi hj
    rw [List.getD_eq_getElem _ _ hi, List.getD_eq_getElem _ _ hj]
    exact hn.getElem_inj_iff
  induction m generalizing x k with
  | zero => rfl
  | succ m ih =>
    unfold shifts
    rw [ih (by omega) _ k hk]
    generalize hkk : (if m = 0 then k else if k = 0 then r.length - 1 else if k = r.length - 1 then m - 1 else
      if k < m then k - 1 else k) = kk
    have hkl : kk < r.length := by rw [← hkk]; split_ifs <;> omega
    generalize hjj : (if m = 0 then r.length - 1 else m - 1) = j
    have hjl : j < r.length := by rw [← hjj]; split_ifs <;> omega
    unfold swapQ
    simp only [hinj kk m hkl (by omega), hinj kk j hkl hjl, apply_ite x, apply_ite (fun i => r.getD i 0)]
    split_ifs at * <;> first | omega | rfl | (congr 2; omega)

theorem rotate_at (k : ℕ) (r : Reg) (hn : r.Nodup) (x : Asg) (i : ℕ) (hi : i < r.length) :
    rotate k r x (r.getD i 0) = x (r.getD ((i + (r.length - k % r.length)) % r.length) 0) := by
  unfold rotate
  rw [List.getD_eq_getElem _ _ hi, if_pos (List.getElem_mem hi), hn.idxOf_getElem]

theorem rotate_keeps (k : ℕ) (r : Reg) (x : Asg) (q : ℕ) (hq : q ∉ r) : rotate k r x q = x q := if_neg hq

theorem reg_ext (r : Reg) (x y : Asg) (hk : ∀ q, q ∉ r → x q = y q) (h : ∀ i < r.length, x (r.getD i 0) = y (r.getD i 0)) : x = y := by
  funext q
  by_cases hq : q ∈ r
  · obtain ⟨i, hi, rfl⟩ := List.mem_iff_getElem.mp hq
    have := h i hi
    rwa [List.getD_eq_getElem _ _ hi] at this
  · exact hk q hq

theorem shifts_rotate (r : Reg) (hr : r ≠ []) (hn : r.Nodup) (x : Asg) : shifts r (r.length - 1) x = rotate 1 r x := by
  have hpos : 0 < r.length := List.length_pos_iff.mpr hr
  refine reg_ext r _ _ (fun q hq => ?_) fun i hi => ?_
  · rw [shifts_keeps r _ (by omega) x q hq, rotate_keeps 1 r x q hq]
  · rw [shifts_at r hn _ (by omega) x i hi, rotate_at 1 r hn x i hi]
    congr 2
    by_cases h1 : r.length = 1
    · rw [h1]; simp; omega
    · rw [Nat.mod_eq_of_lt (by omega : 1 < r.length)]
      by_cases h0 : i = 0
      · subst h0
        rw [if_neg (by omega), if_pos rfl, Nat.zero_add, Nat.mod_eq_of_lt (by omega)]
      · rw [show i + (r.length - 1) = (i - 1) + r.length by omega, Nat.add_mod_right, Nat.mod_eq_of_lt (by omega)]
        split_ifs <;> omega

theorem Maps.rshift (cs : List Reg) (r : Reg) (hr : r ≠ []) : Maps ang cs (Arith.rshift [r] : M β _) [r] r (rotate 1 r) := by
  refine Maps.of_nodup (rotate_keeps 1 r) fun hn => ?_
  have hpos : 0 < r.length := List.length_pos_iff.mpr hr
  have h1 := (Maps.shifts (ang := ang) (β := β) cs r hn (r.length - 1) (by omega)).bind (f := fun rs => do
    let m ← mergeRegisters (rs.filterMap id)
    let r ← unwrapO m
    Pure.pure [r]) (c := [r]) (ψ := id) ?_
  · refine (h1.cast ?_ rfl).congr fun x => shifts_rotate r hr hn x
    rw [Arith.rshift, splitAll_eq r hr hn, pure_bind, if_neg (by omega), List.map_map]
    rfl
  · have : (r.map fun q => some [q]).filterMap id = r.map fun q => [q] := by
      rw [List.filterMap_map]
      exact congrFun (List.filterMap_eq_map' (f := fun q : ℕ => [q])) r
    rw [this, mergeSingles r hr, pure_bind, unwrapO_some, pure_bind]
    exact Maps.pure _

/-- `copy` on basis states -/
def copyMap : List ℕ → List ℕ → Asg → Asg
  | a :: as, b :: bs, x => copyMap as bs (Function.update x b (xor (x b) (x a)))
  | _, _, x => x

theorem copyMap_keeps (as bs : List ℕ) (x : Asg) (q : ℕ) (hq : q ∉ bs) : copyMap as bs x q = x q := by
  fun_induction copyMap as bs x with
  | case1 a as b bs x ih =>
    simp only [List.mem_cons, not_or] at hq
    rw [ih hq.2, Function.update_of_ne hq.1]
  | case2 => rfl

theorem copyMap_at (as bs : List ℕ) (hn : (as ++ bs).Nodup) (hl : as.length = bs.length) (x : Asg) (i : ℕ) (hi : i < bs.length) :
    copyMap as bs x (bs.getD i 0) = xor (x (bs.getD i 0)) (x (as.getD i 0)) := by
  induction as generalizing bs x i with
  | nil => simp at hl; omega
  | cons a as ih =>
    cases bs with
    | nil => simp at hi
    | cons b bs =>
      have hn2 : (as ++ bs).Nodup := by
        refine hn.sublist ?_
        rw [List.cons_append]
        exact List.Sublist.cons a ((List.Sublist.refl as).append (List.Sublist.cons b (List.Sublist.refl bs)))
      have hb : b ∉ bs ∧ b ∉ as := by
        simp only [List.nodup_append, List.nodup_cons, List.mem_cons] at hn
        grind
      unfold copyMap
      cases i with
      | zero =>
        simp only [List.getD_cons_zero]
        rw [copyMap_keeps _ _ _ _ hb.1, Function.update_self]
      | succ i =>
        simp only [List.length_cons, Nat.add_lt_add_iff_right, Nat.add_right_cancel_iff] at hi hl
        simp only [List.getD_cons_succ]
        rw [ih bs hn2 hl _ i hi, Function.update_of_ne, Function.update_of_ne]
        · rintro rfl
          rw [List.getD_eq_getElem _ _ (by omega : i < as.length)] at hb
          exact hb.2 (List.getElem_mem _)
        · rintro rfl
          rw [List.getD_eq_getElem _ _ hi] at hb
          exact hb.1 (List.getElem_mem _)

theorem copyFold (cs : List Reg) (as bs : List ℕ) (hl : as.length = bs.length) (hn : (as ++ bs).Nodup) (acc1 acc2 : List Reg) :
    Maps ang cs (((as.map fun q => [q]).zip (bs.map fun q => [q])).foldlM (fun (acc : List Reg × List Reg) (p : Reg × Reg) => do
        let (ra, rb) ← cnot p.1 p.2
        Pure.pure (acc.1 ++ [ra], acc.2 ++ [rb])) (acc1, acc2) : M β _) (acc1 ++ as.map (fun q => [q]), acc2 ++ bs.map fun q => [q]) (as ++ bs)
      (copyMap as bs) := by
  induction as generalizing bs acc1 acc2 with
  | nil =>
    obtain rfl : bs = [] := by simpa using hl.symm
    simp only [List.map_nil, List.append_nil, List.zip_nil_left, List.foldlM_nil]
    exact Maps.pure _
  | cons a as ih =>
    cases bs with
    | nil => simp at hl
    | cons b bs =>
      have hsub : (as ++ bs).Sublist (a :: as ++ b :: bs) := by
        rw [List.cons_append]
        exact List.Sublist.cons a ((List.Sublist.refl as).append (List.Sublist.cons b (List.Sublist.refl bs)))
      have hab : a ≠ b := by
        rintro rfl
        simp at hn
      rw [List.map_cons, List.map_cons, List.zip_cons_cons, List.foldlM_cons]
      have h1 := ((Maps.cnot (ang := ang) (β := β) cs a [b] (by simp)).map (f := fun p : Reg × Reg => (acc1 ++ [p.1], acc2 ++ [p.2])) rfl).mono
        (Q' := a :: as ++ b :: bs) (by simpa using hab) (by simp)
      have h2 := (ih bs (by simpa using hl) (hn.sublist hsub) (acc1 ++ [[a]]) (acc2 ++ [[b]])).mono (Q' := a :: as ++ b :: bs)
        (hn.sublist hsub) (fun q hq => hsub.subset hq)
      refine ((h1.bind h2).cast rfl ?_).congr fun x => ?_
      · simp
      · conv_rhs => unfold copyMap
        congr 1
        rw [flipAll_single, flipQ_eq]
        cases h : x a <;> simp

theorem Maps.copy (cs : List Reg) (a b : Reg) (hr : a ≠ []) (hl : a.length = b.length) :
    Maps ang cs (Arith.copy [a, b] : M β _) [a, b] (a ++ b) (copyMap a b) := by
  have hrb : b ≠ [] := by rintro rfl; simp at hl; exact hr hl
  refine Maps.of_nodup (fun x q hq => copyMap_keeps _ _ _ _ fun h => hq (by simp [h])) fun hn => ?_
  have h1 := (copyFold (ang := ang) (β := β) cs a b hl hn [] []).bind (f := fun ps => do
      let ma ← mergeRegisters ps.1
      let ra ← unwrapO ma
      let mb ← mergeRegisters ps.2
      let rb ← unwrapO mb
      Pure.pure [ra, rb]) (c := [a, b]) (ψ := id) ?_
  · refine (h1.cast ?_ rfl).congr fun x => rfl
    rw [Arith.copy, if_neg (by simpa using hl), splitAll_eq a hr (List.nodup_append.mp hn).1, pure_bind, splitAll_eq b hrb (List.nodup_append.mp hn).2.1, pure_bind]
  · rw [List.nil_append, List.nil_append, mergeSingles a hr, pure_bind, unwrapO_some, pure_bind, mergeSingles b hrb, pure_bind, unwrapO_some, pure_bind]
    exact Maps.pure _

end

end Verif
