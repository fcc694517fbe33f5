import Verif.Proofs.Uses3
import Verif.Proofs.QuietMod

/-! # Counting elements and qubits: copies, shifts and the adder -/

namespace Verif
open Classical RegOps CircuitBuilder TempBuilder Rooted

/-! ## no other elements -/

theorem tof2_other (t : ℕ) : tof2 t .other = 0 := rfl

theorem tofN_other (c t : ℕ) : tofN c t .other = 0 := by
  match c with
  | 0 => simp [tofN, one]
  | 1 => simp [tofN, one]
  | c + 2 => simp [tofN, tof2]

theorem one_other {k : Kind} (h : k ≠ .other) : one k .other = 0 := by
  cases k <;> simp [one] at h ⊢

theorem condK_other (c : ℕ) {k : Kind} (h : k ≠ .other) : condK c k .other = 0 := by
  unfold condK
  split
  · exact one_other h
  · cases k <;> simp [one, tofN_other] at h ⊢

theorem condP_other (c : ℕ) {P : Profile} (h : P .other = 0) : condP c P .other = 0 := by
  unfold condP
  rw [Finset.sum_apply]
  refine Finset.sum_eq_zero fun k _ => ?_
  by_cases hk : k = .other
  · subst hk; rw [h]; simp
  · simp [condK_other c hk]

namespace Count

theorem inv_other (c : ℕ) {P : Profile} (h : P .other = 0) : inv P c .other = 0 := condP_other c (invP_other h)
theorem sum_other (c : ℕ) : sum c .other = 0 := by simp [sum, tofN_other]
theorem carry_other (c : ℕ) : carry c .other = 0 := by simp [carry, tofN_other]
theorem copy_other (n c : ℕ) : copy n c .other = 0 := by simp [copy, tofN_other]
theorem rshift_other (n c : ℕ) : rshift n c .other = 0 := by simp [rshift, tofN_other]
theorem add_other (n c : ℕ) : add n c .other = 0 := by simp [add, carry_other, sum_other, inv_other]
theorem addMod_other (n c : ℕ) : addMod n c .other = 0 := by simp [addMod, add_other, inv_other, tofN_other]
theorem timesMod_other (n k c : ℕ) : timesMod n k c .other = 0 := by
  simp [timesMod, addMod_other, add_other, rshift_other, inv_other, tofN_other]
theorem squareMod_other (n c : ℕ) : squareMod n c .other = 0 := by simp [squareMod, copy_other, timesMod_other, inv_other]
theorem expLast_other (n c : ℕ) : expLast n c .other = 0 := by simp [expLast, copy_other, timesMod_other, tofN_other]
theorem expStep_other (n c : ℕ) : expStep n c .other = 0 := by
  simp [expStep, expLast_other, squareMod_other, copy_other, timesMod_other, inv_other, tofN_other]
theorem expMod_other (n k c : ℕ) : expMod n k c .other = 0 := by simp [expMod, expStep_other, expLast_other]

theorem add_step (n c : ℕ) : carry c + (add (n + 1) c + (inv (carry 0) c + (sum c + 0))) = add (n + 2) c := by
  unfold add
  rw [show n + 2 - 1 = n + 1 from rfl, show n + 1 - 1 = n from rfl]
  generalize carry c = x
  generalize sum c = y
  generalize inv (carry 0) c = z
  rw [add_smul (n + 1) 1 (x + y), one_smul, add_smul n 1 z, one_smul]
  abel

end Count

/-! ## copies and shifts -/

theorem flat1 {cs : List Reg} {c : ℕ} (h : cs.flatten.length = c) (q : ℕ) : ([q] :: cs).flatten.length = c + 1 := by
  rw [List.flatten_cons, List.length_append, h, List.length_singleton, add_comm]

theorem flat2 {cs : List Reg} {c : ℕ} (h : cs.flatten.length = c) (p q : ℕ) : ([p, q] :: cs).flatten.length = c + 2 := by
  rw [List.flatten_cons, List.length_append, h, add_comm]
  rfl


section
variable {β : Type} [Conditionable β] [Rooted β] [Sim β] {cs : List Reg} {c : ℕ}

theorem Takes.op1x (hc : cs.flatten.length = c) (q : ℕ) : Takes cs (Verif.op1 Gate.x [[q]] : M β _) [[q]] [q] (tofP c) (c - 2) (c - 2) := by
  subst hc
  exact (Takes.x (β := β) (cs := cs) q).map (f := fun r => [r]) rfl

theorem Takes.fold {α ι : Type} {f : α → ι → M β α} {a : α} {Q : List ℕ} {P : Profile} {lo hi : ℕ} (l : List ι)
    (h : ∀ i ∈ l, Takes cs (f a i) a Q P lo hi) (hne : l ≠ []) : Takes cs (l.foldlM f a) a Q (l.length • P) lo hi := by
  induction l with
  | nil => exact absurd rfl hne
  | cons i l ih =>
    rw [List.foldlM_cons]
    by_cases hl : l = []
    · subst hl
      refine ((h i (by simp)).bind (f := fun s => List.foldlM f s []) (c := a) (P' := 0) (lo' := 0) (hi' := 0) (Takes.pure _ _)).congr (by simp) (by omega) (by omega)
    · refine ((h i (by simp)).bind (ih (fun j hj => h j (by simp [hj])) hl)).congr ?_ (by omega) (by omega)
      rw [List.length_cons, add_smul, one_smul, add_comm]

theorem Takes.swap1 (hc : cs.flatten.length = c) (a b : ℕ) :
    Takes cs (Verif.swap [a] [b] : M β _) ([a], [b]) [a, b] (3 • tofP (c + 1)) (c - 1) (c - 1) := by
  subst hc
  have h1 := (Takes.swapPair (β := β) (cs := cs) a b).bind (f := fun p => do
      let ma ← mergeRegisters [p.1]
      let ra ← unwrapO ma
      let mb ← mergeRegisters [p.2]
      let rb ← unwrapO mb
      Pure.pure (ra, rb)) (c := ([a], [b])) (P' := 0) (lo' := 0) (hi' := 0) (by
    rw [show ([([a], [b]).1] : List Reg) = [a].map fun q => [q] from rfl, mergeSingles [a] (by simp)]
    rw [show ([([a], [b]).2] : List Reg) = [b].map fun q => [q] from rfl]
    simp only [pure_bind, unwrapO_some]
    rw [mergeSingles [b] (by simp)]
    exact Takes.pure _ _)
  refine Takes.cast (h1.congr (add_zero _) (Nat.le_max_left _ _) (le_of_eq (Nat.max_zero _))) ?_ rfl rfl
  unfold Verif.swap
  rw [if_pos (by simp), splitAll_eq [a] (by simp) (by simp), pure_bind, splitAll_eq [b] (by simp) (by simp), pure_bind]
  simp only [List.map_cons, List.map_nil, List.zip_cons_cons, List.zip_nil_left, List.mapM_cons, List.mapM_nil, bind_assoc, pure_bind]

end

section
variable {β : Type} [Recursive β] [Rooted β] [SubSim β] {cs : List Reg} {c n k : ℕ}

/-- one step of `rshift` -/
theorem Takes.rshiftStep (hc : cs.flatten.length = c) (r : Reg) (hn : r.Nodup) (i j : ℕ) (hi : i < r.length) (hj : j < r.length) (hij : i ≠ j)
    (he : j = if i = 0 then r.length - 1 else i - 1) :
    Takes cs (Arith.rshiftStep r.length (r.map fun q => some [q]) i : M β _) (r.map fun q => some [q]) r (3 • tofP (c + 1)) (c - 1) (c - 1) := by
  have hne : r[i] ≠ r[j] := fun h => hij (hn.getElem_inj_iff.mp h)
  have h1 := (Takes.swap1 (β := β) hc r[i] r[j]).unwrap
  have h2 := (h1.map (f := fun p : Reg × Reg => ((((r.map fun q => some [q]).set i none).set j none).set i (some p.1)).set j (some p.2))
    (c := r.map fun q => some [q]) ?_).mono (Q' := r) (by simpa using hne) (by simp)
  · refine h2.cast ?_ rfl rfl
    unfold Arith.rshiftStep
    have e1 : ((r.map fun q => some [q])[i]?).join = some [r[i]] := by
      rw [List.getElem?_map, List.getElem?_eq_getElem hi]; rfl
    have e2 : ((((r.map fun q => some [q]).set i none))[j]?).join = some [r[j]] := by
      rw [List.getElem?_set_ne hij, List.getElem?_map, List.getElem?_eq_getElem hj]; rfl
    rw [e1, unwrapO_some, pure_bind]
    simp only [← he]
    rw [e2, unwrapO_some, pure_bind]
  · refine List.ext_getElem (by simp) fun k h1 h2 => ?_
    simp only [List.length_map] at h2
    simp only [List.getElem_set, List.getElem_map]
    split
    · rename_i h; subst h; rfl
    · split
      · rename_i h; subst h; rfl
      · rfl

theorem Takes.rshift (hc : cs.flatten.length = c) (r : Reg) (hr : r.length = n) (h2 : 2 ≤ n) :
    Takes cs (Arith.rshift [r] : M β _) [r] [r].flatten (Count.rshift n c) (c - 1) (c - 1) := by
  subst hr
  have hne : r ≠ [] := by rintro rfl; simp at h2
  have e : [r].flatten = r := by simp
  rw [e]
  refine Takes.of_nodup fun hn => ?_
  have h1 : Takes cs ((List.range (r.length - 1)).reverse.foldlM (Arith.rshiftStep r.length) (r.map fun q => some [q]) : M β _) (r.map fun q => some [q]) r
      ((List.range (r.length - 1)).reverse.length • (3 • tofP (c + 1))) (c - 1) (c - 1) := by
    refine Takes.fold _ (fun i hi => ?_) (by simp; omega)
    have hi' : i < r.length - 1 := by simpa using hi
    exact Takes.rshiftStep hc r hn i (if i = 0 then r.length - 1 else i - 1) (by omega) (by split <;> omega) (by split <;> omega) rfl
  have h3 := h1.bind (f := fun rs => do
    let m ← mergeRegisters (rs.filterMap id)
    let r ← unwrapO m
    Pure.pure [r]) (c := [r]) (P' := 0) (lo' := 0) (hi' := 0) ?_
  · refine (h3.cast ?_ rfl rfl).congr ?_ (by omega) (by omega)
    · rw [Arith.rshift, splitAll_eq r hne hn, pure_bind, if_neg (by omega), List.map_map]
      rfl
    · rw [add_zero, Count.rshift, List.length_reverse, List.length_range, smul_smul, mul_comm]
  · have : (r.map fun q => some [q]).filterMap id = r.map fun q => [q] := by
      rw [List.filterMap_map]
      exact congrFun (List.filterMap_eq_map' (f := fun q : ℕ => [q])) r
    rw [this, mergeSingles r hne, pure_bind, unwrapO_some, pure_bind]
    exact Takes.pure _ _

theorem Takes.lshift (hc : cs.flatten.length = c) (r : Reg) (hr : r.length = n) (h2 : 2 ≤ n) :
    Takes cs (Arith.lshift [r] : M β _) [r] [r].flatten (Count.inv (Count.rshift n 0) c) 0 c := by
  have hne : r ≠ [] := by rintro rfl; simp at hr; omega
  refine (Takes.inverse (β := β) (cs := cs) (rs := [r]) (f := Arith.rshift) (by simp) (by simpa using hne)
    (Quiet.rshift (β := LocalBuilder) (cs := []) (List.range' 0 r.length) (by simp; omega) (by simp) (r.length - 1) (by simp; omega)) (.inr ?_)
    (Takes.rshift (β := LocalBuilder) (cs := []) (c := 0) (n := n) (by simp) (List.range' 0 r.length) (by simpa using hr) h2) (Count.rshift_other _ _)).congr
    (by rw [hc]) (le_refl _) (by omega)
  rw [List.getD_eq_getElem _ _ (by simp; omega)]
  simp

theorem copyFold_takes (hc : cs.flatten.length = c) (as bs : List ℕ) (hl : as.length = bs.length) (hn : (as ++ bs).Nodup) (hne : as ≠ []) (acc1 acc2 : List Reg) :
    Takes cs (((as.map fun q => [q]).zip (bs.map fun q => [q])).foldlM (fun (acc : List Reg × List Reg) (p : Reg × Reg) => do
        let (ra, rb) ← cnot p.1 p.2
        Pure.pure (acc.1 ++ [ra], acc.2 ++ [rb])) (acc1, acc2) : M β _) (acc1 ++ as.map (fun q => [q]), acc2 ++ bs.map fun q => [q]) (as ++ bs)
      (as.length • tofP (c + 1)) (c - 1) (c - 1) := by
  induction as generalizing bs acc1 acc2 with
  | nil => exact absurd rfl hne
  | cons a as ih =>
    cases bs with
    | nil => simp at hl
    | cons b bs =>
      have hsub : (as ++ bs).Sublist (a :: as ++ b :: bs) := by
        rw [List.cons_append]
        exact List.Sublist.cons a ((List.Sublist.refl as).append (List.Sublist.cons b (List.Sublist.refl bs)))
      have hab : a ≠ b := by
        rintro rfl
        simp at hn
      rw [List.map_cons, List.map_cons, List.zip_cons_cons, List.foldlM_cons]
      have h1 := ((Takes.cnot (β := β) (cs := cs) a [b] (by simp)).map (f := fun p : Reg × Reg => (acc1 ++ [p.1], acc2 ++ [p.2])) rfl).mono
        (Q' := a :: as ++ b :: bs) (by simpa using hab) (by simp)
      rw [hc] at h1
      by_cases ha : as = []
      · subst ha
        obtain rfl : bs = [] := by simpa using hl.symm
        refine ((h1.bind (P' := 0) (lo' := 0) (hi' := 0) (Takes.pure _ _)).congr ?_ (by omega) (by omega))
        simp
      · have h2 := (ih bs (by simpa using hl) (hn.sublist hsub) ha (acc1 ++ [[a]]) (acc2 ++ [[b]])).mono (Q' := a :: as ++ b :: bs)
          (hn.sublist hsub) (fun q hq => hsub.subset hq)
        refine ((h1.bind h2).cast rfl (by simp) rfl).congr ?_ (by omega) (by omega)
        simp only [List.length_cons, List.length_nil, add_smul, one_smul, zero_add]
        exact add_comm _ _

theorem Takes.copy (hc : cs.flatten.length = c) (a b : Reg) (hr : a.length = n) (h1 : 0 < n) (hl : b.length = n) :
    Takes cs (Arith.copy [a, b] : M β _) [a, b] [a, b].flatten (Count.copy n c) (c - 1) (c - 1) := by
  have hra : a ≠ [] := by rintro rfl; simp at hr; omega
  have hrb : b ≠ [] := by rintro rfl; simp at hl; omega
  have e : [a, b].flatten = a ++ b := by simp
  rw [e]
  refine Takes.of_nodup fun hn => ?_
  have h1 := (copyFold_takes (β := β) hc a b (by omega) hn hra [] []).bind (f := fun ps => do
      let ma ← mergeRegisters ps.1
      let ra ← unwrapO ma
      let mb ← mergeRegisters ps.2
      let rb ← unwrapO mb
      Pure.pure [ra, rb]) (c := [a, b]) (P' := 0) (lo' := 0) (hi' := 0) ?_
  · refine (h1.cast ?_ rfl rfl).congr (by rw [hr, add_zero]; rfl) (by omega) (by omega)
    rw [Arith.copy, if_neg (by omega), splitAll_eq a hra (List.nodup_append.mp hn).1, pure_bind, splitAll_eq b hrb (List.nodup_append.mp hn).2.1, pure_bind]
  · rw [List.nil_append, List.nil_append, mergeSingles a hra, pure_bind, unwrapO_some, pure_bind, mergeSingles b hrb, pure_bind, unwrapO_some, pure_bind]
    exact Takes.pure _ _

theorem Takes.copyInv (hc : cs.flatten.length = c) (a b : Reg) (hr : a.length = n) (h1 : 0 < n) (hl : b.length = n) :
    Takes cs (Arith.copyInv [a, b] : M β _) [a, b] [a, b].flatten (Count.inv (Count.copy n 0) c) 0 c := by
  have hra : a ≠ [] := by rintro rfl; simp at hr; omega
  have hrb : b ≠ [] := by rintro rfl; simp at hl; omega
  refine (Takes.inverse (β := β) (cs := cs) (rs := [a, b]) (f := Arith.copy) (by simp) (by simp [hra, hrb])
    (Quiet.copy (β := LocalBuilder) (cs := []) (List.range' 0 a.length) (List.range' (0 + a.length) b.length) (by simp; omega) (by simp; omega) (a.length - 1) (by simp; omega)) (.inr ?_)
    (Takes.copy (β := LocalBuilder) (cs := []) (c := 0) (n := n) (by simp) (List.range' 0 a.length) (List.range' (0 + a.length) b.length) (by simpa using hr) h1 (by simpa using hl))
      (Count.copy_other _ _)).congr (by rw [hc]) (le_refl _) (by omega)
  rw [List.getD_eq_getElem _ _ (by simp; omega)]
  simp
  omega

/-! ## the adder -/

theorem Takes.sum (hc : cs.flatten.length = c) (x a b : ℕ) :
    Takes cs (Arith.sum [[x], [a], [b]] : M β _) [[x], [a], [b]] [x, a, b] (Count.sum c) (c - 1) (c - 1) := by
  refine Takes.program (rs := [[x], [a], [b]]) (by simp) fun hn => ?_
  have v1 : ValidGroups [[x], [a], [b]] [[(1, none)], [(2, none)]] :=
    valid_shape (rs' := [[0], [1], [2]]) rfl ⟨by decide, by decide, by decide, by unfold HasPos; decide⟩
  have v2 : ValidGroups [[x], [a], [b]] [[(0, none)], [(2, none)]] :=
    valid_shape (rs' := [[0], [1], [2]]) rfl ⟨by decide, by decide, by decide, by unfold HasPos; decide⟩
  have h1 : Takes cs _ _ _ _ _ _ := Takes.lines_nil (β := β) (rs := [[x], [a], [b]])
  have h2 := Takes.control hn v2 (c := [x]) (as := [[b]]) rfl rfl (by simp) (Takes.op1x (β := Conditioned β) (cs := [x] :: cs) (c := c + 1) (flat1 hc _) b) h1
  have h3 := Takes.control hn v1 (c := [a]) (as := [[b]]) rfl rfl (by simp) (Takes.op1x (β := Conditioned β) (cs := [a] :: cs) (c := c + 1) (flat1 hc _) b) h2
  refine h3.congr ?_ (by omega) (by omega)
  rw [Count.sum, two_smul, add_zero]

theorem Takes.carry (hc : cs.flatten.length = c) (x a b d : ℕ) :
    Takes cs (Arith.carry [[x], [a], [b], [d]] : M β _) [[x], [a], [b], [d]] [x, a, b, d] (Count.carry c) c c := by
  refine Takes.program (rs := [[x], [a], [b], [d]]) (by simp) fun hn => ?_
  have v2 : ValidGroups [[x], [a], [b], [d]] [[(1, none)], [(2, none)]] :=
    valid_shape (rs' := [[0], [1], [2], [3]]) rfl ⟨by decide, by decide, by decide, by unfold HasPos; decide⟩
  have v3 : ValidGroups [[x], [a], [b], [d]] [[(0, none), (2, none)], [(3, none)]] :=
    valid_shape (rs' := [[0], [1], [2], [3]]) rfl ⟨by decide, by decide, by decide, by unfold HasPos; decide⟩
  have v1 : ValidGroups [[x], [a], [b], [d]] [[(1, none), (2, none)], [(3, none)]] :=
    valid_shape (rs' := [[0], [1], [2], [3]]) rfl ⟨by decide, by decide, by decide, by unfold HasPos; decide⟩
  have h1 : Takes cs _ _ _ _ _ _ := Takes.lines_nil (β := β) (rs := [[x], [a], [b], [d]])
  have m1 := Takes.op1x (β := Conditioned β) (cs := [a] :: cs) (c := c + 1) (flat1 hc _) b
  have m2 := Takes.op1x (β := Conditioned β) (cs := [x, b] :: cs) (c := c + 2) (flat2 hc _ _) d
  have m3 := Takes.op1x (β := Conditioned β) (cs := [a, b] :: cs) (c := c + 2) (flat2 hc _ _) d
  have h2 := Takes.control hn v2 (c := [a]) (as := [[b]]) rfl rfl (by simp) m1 h1
  have h3 := Takes.control hn v3 (c := [x, b]) (as := [[d]]) rfl rfl (by simp) m2 h2
  have h4 := Takes.control hn v2 (c := [a]) (as := [[b]]) rfl rfl (by simp) m1 h3
  have h5 := Takes.control hn v1 (c := [a, b]) (as := [[d]]) rfl rfl (by simp) m3 h4
  refine h5.congr ?_ (by omega) (by omega)
  rw [Count.carry, two_smul, two_smul, add_zero]
  abel

theorem Takes.carryInv (hc : cs.flatten.length = c) (x a b d : ℕ) :
    Takes cs (Arith.carryInv [[x], [a], [b], [d]] : M β _) [[x], [a], [b], [d]] [x, a, b, d] (Count.inv (Count.carry 0) c) 0 c :=
  (Takes.inverse (β := β) (cs := cs) (rs := [[x], [a], [b], [d]]) (f := Arith.carry) (T := {some 3}) (by simp) (by simp)
    (Sure.cast (Quiet.carry (β := LocalBuilder) (cs := []) 0 1 2 3) rfl rfl rfl) (.inr (by simp))
    (Takes.cast (Takes.carry (β := LocalBuilder) (cs := []) (c := 0) (by simp) 0 1 2 3) rfl rfl rfl) (Count.carry_other _)).congr (by rw [hc]) (le_refl _) (by omega)

theorem Takes.addF (hc : cs.flatten.length = c) (fuel : ℕ) (c0 : ℕ) (ct a b : Reg) (hf : ct.length < fuel) (ha : a.length = ct.length + 1) (hb : b.length = ct.length + 2) :
    Takes cs (Arith.addF fuel [c0 :: ct, a, b] : M β _) [c0 :: ct, a, b] [c0 :: ct, a, b].flatten (Count.add (ct.length + 1) c) c c := by
  induction fuel generalizing c0 ct a b with
  | zero => omega
  | succ fuel ih =>
    have hr : ∀ r ∈ [c0 :: ct, a, b], r ≠ [] := by
      intro r hr
      simp only [List.mem_cons, List.not_mem_nil, or_false] at hr
      rcases hr with rfl | rfl | rfl
      · simp
      · rintro rfl; simp at ha
      · rintro rfl; simp at hb
    unfold Arith.addF
    cases ct with
    | nil =>
      obtain ⟨a0, rfl⟩ := List.length_eq_one_iff.mp ha
      obtain ⟨b0, b1, rfl⟩ := List.length_eq_two.mp hb
      rw [if_pos (by simp)]
      refine Takes.program hr fun hn => ?_
      have v1 : ValidGroups [[c0], [a0], [b0, b1]] [[(0, none)], [(1, none)], [(2, some [0])], [(2, some [1])]] :=
        valid_shape (rs' := [[0], [1], [2, 3]]) rfl ⟨by decide, by decide, by decide, by unfold HasPos; decide⟩
      have v2 : ValidGroups [[c0], [a0], [b0, b1]] [[(0, none)], [(1, none)], [(2, some [0])]] :=
        valid_shape (rs' := [[0], [1], [2, 3]]) rfl ⟨by decide, by decide, by decide, by unfold HasPos; decide⟩
      have h1 : Takes cs _ _ _ _ _ _ := Takes.lines_nil (β := β) (rs := [[c0], [a0], [b0, b1]])
      have h2 := Takes.plain hn v2 (as := [[c0], [a0], [b0]]) rfl (Takes.sum hc c0 a0 b0) h1
      have h3 := Takes.plain hn v1 (as := [[c0], [a0], [b0], [b1]]) rfl (Takes.carry hc c0 a0 b0 b1) h2
      refine h3.congr ?_ (by omega) (by omega)
      simp [Count.add]
    | cons c1 ct =>
      obtain ⟨a0, as, rfl⟩ := List.exists_cons_of_length_pos (l := a) (by omega)
      obtain ⟨b0, bs, rfl⟩ := List.exists_cons_of_length_pos (l := b) (by omega)
      simp only [List.length_cons, Nat.add_right_cancel_iff] at ha hb hf
      rw [if_neg (by simp), if_pos (by simp [ha, hb])]
      refine Takes.program hr fun hn => ?_
      have hlen : (c0 :: c1 :: ct).length = ct.length + 2 := rfl
      rw [hlen, show ct.length + 2 - 1 = ct.length + 1 from rfl]
      obtain ⟨v1, v2, v3, e⟩ := add_groups c0 c1 a0 b0 ct as bs ha hb
      have h1 : Takes cs _ _ _ _ _ _ := Takes.lines_nil (β := β) (rs := [c0 :: c1 :: ct, a0 :: as, b0 :: bs])
      have h2 := Takes.plain hn v3 (as := [[c0], [a0], [b0]]) rfl (Takes.sum hc c0 a0 b0) h1
      have h3 := Takes.plain hn v1 (as := [[c0], [a0], [b0], [c1]]) rfl (Takes.carryInv hc c0 a0 b0 c1) h2
      have h4 := Takes.plain hn v2 e (ih c1 ct as bs (by omega) ha hb) h3
      have h5 := Takes.plain hn v1 (as := [[c0], [a0], [b0], [c1]]) rfl (Takes.carry hc c0 a0 b0 c1) h4
      refine h5.congr ?_ (by omega) (by omega)
      exact Count.add_step ct.length c

theorem Takes.add (hc : cs.flatten.length = c) (rc ra rb : Reg) (hr : rc.length = n) (h0 : 0 < n) (ha : ra.length = n) (hb : rb.length = n + 1) :
    Takes cs (Arith.add [rc, ra, rb] : M β _) [rc, ra, rb] [rc, ra, rb].flatten (Count.add n c) c c := by
  obtain ⟨c0, ct, rfl⟩ := List.exists_cons_of_length_pos (l := rc) (by omega)
  subst hr
  exact Takes.addF hc _ c0 ct ra rb (by simp) ha hb

theorem Takes.addInv (hc : cs.flatten.length = c) (rc ra rb : Reg) (hr : rc.length = n) (h0 : 0 < n) (ha : ra.length = n) (hb : rb.length = n + 1) :
    Takes cs (Arith.addInv [rc, ra, rb] : M β _) [rc, ra, rb] [rc, ra, rb].flatten (Count.inv (Count.add n 0) c) 0 c := by
  have ne : ∀ r : Reg, 0 < r.length → r ≠ [] := fun r h => List.length_pos_iff.mp h
  refine (Takes.inverse (β := β) (cs := cs) (rs := [rc, ra, rb]) (f := Arith.add) (by simp) (by simp [ne rc (by omega), ne ra (by omega), ne rb (by omega)])
    (Quiet.add (β := LocalBuilder) (cs := []) (List.range' 0 rc.length) (List.range' (0 + rc.length) ra.length) (List.range' (0 + rc.length + ra.length) rb.length)
      (ne _ (by rw [List.length_range']; omega)) (by simp; omega) (by simp; omega)) (.inr ?_)
    (Takes.add (β := LocalBuilder) (cs := []) (c := 0) (n := n) (by simp) (List.range' 0 rc.length) (List.range' (0 + rc.length) ra.length)
      (List.range' (0 + rc.length + ra.length) rb.length) (by simpa using hr) h0 (by simpa using ha) (by simpa using hb)) (Count.add_other _ _)).congr
      (by rw [hc]) (le_refl _) (by omega)
  subst hr
  rw [List.getD_eq_getElem _ _ (by simp; omega)]
  simp
  omega

end

end Verif
