import Verif.Proofs.Uses5

/-! # Counting elements and qubits: seen from outside the conditions; closed formulas -/

namespace Verif
open Classical RegOps CircuitBuilder TempBuilder Rooted

/-- a method inside the conditions, seen from outside -/
theorem under_uses {α : Type} : (crs : List Reg) → (m : M (NB crs.length) α) → {b : LocalBuilder} → {a : α} → {L : List ℕ} →
    {P : Profile} → {k lo hi : ℕ} → (∀ c ∈ crs, c ≠ []) → Uses m (stack crs b) a L P k lo hi → Uses (under crs m) b (a, crs) L P k lo hi
  | [], m, b, a, L, P, k, lo, hi, _, h => by
    obtain ⟨s', h1, h2⟩ := h
    refine ⟨s', ?_, h2⟩
    exact bind_ok (β := LocalBuilder) (x := m) (f := fun a => pure (a, [])) h1
  | c :: cs, m, b, a, L, P, k, lo, hi, hc, h => by
    have h1 := Uses.conditioned (β := NB cs.length) (cs := cs) (cr := c) (m := m) (s := stack cs b)
      (ctl_stack cs b fun d hd => hc d (by simp [hd])) (hc c (by simp)) h
    obtain ⟨s', h2, h3⟩ := under_uses cs _ (fun d hd => hc d (by simp [hd])) h1
    refine ⟨s', ?_, h3⟩
    show (under cs _ >>= _) b = _
    rw [bind_ok h2]
    rfl

theorem Uses.costs {α : Type} {m : M LocalBuilder α} {b : LocalBuilder} {a : α} {L : List ℕ} {P : Profile} {t : ℕ} (h : Uses m b a L P 0 t t) : Costs m b a P t := by
  obtain ⟨b', h1, -, -, ⟨seg, h2, h3⟩, h4, h5, h6⟩ := h
  exact ⟨b', seg, h1, h2, h3, h4, le_antisymm h6 h5⟩

theorem Uses.atMost {α : Type} {m : M LocalBuilder α} {b : LocalBuilder} {a : α} {L : List ℕ} {P : Profile} {lo t : ℕ} (h : Uses m b a L P 0 lo t) :
    CostsAtMost m b a P t := by
  obtain ⟨b', h1, -, -, ⟨seg, h2, h3⟩, h4, h5, h6⟩ := h
  exact ⟨b', seg, h1, h2, h3, h4, le_trans (Nat.le_max_left _ _) h5, h6⟩

section
variable {α : Type} {crs : List Reg} {m : M (NB crs.length) α} {a : α} {Q : List ℕ} {P : Profile} {lo t : ℕ}

theorem Takes.under (h : Takes crs m a Q P lo t) (hc : ∀ c ∈ crs, c ≠ []) (s : LocalBuilder) (L : List ℕ) (ho : Own s (crs.flatten ++ Q ++ L)) :
    Uses (Verif.under crs m) s (a, crs) (crs.flatten ++ Q ++ L) P 0 lo t := by
  have h1 := h (stack crs s) L (ctl_stack crs s hc) (by rw [root_stack]; exact ho)
  exact under_uses crs m hc h1

end

/-! ## all circuits -/

section
variable {β : Type} [Recursive β] [Rooted β] [SubSim β] {cs : List Reg} {n : ℕ}

theorem Takes.rshift1 (q : ℕ) : Takes cs (Arith.rshift [[q]] : M β _) [[q]] [[q]].flatten 0 0 0 := by
  refine (Takes.pure (β := β) (cs := cs) [[q]] [[q]].flatten).cast ?_ rfl rfl
  rw [Arith.rshift, splitAll_eq [q] (by simp) (by simp), pure_bind, if_neg (by simp)]
  show (do
    let m ← mergeRegisters [[q]]
    let r ← unwrapO m
    Pure.pure [r] : M β _) = _
  rw [show ([[q]] : List Reg) = [q].map fun q => [q] from rfl, mergeSingles [q] (by simp), pure_bind, unwrapO_some, pure_bind]
  rfl

theorem circ_takes (hn : cs.flatten.length = n) (c : Circ) (rs : List Reg) (hr : ∀ r ∈ rs, r ≠ []) (hf : c.Fits (rs.map List.length)) :
    ∃ lo, Takes cs (c.run rs : M β _) rs rs.flatten (c.elements (rs.map List.length) n) lo (c.temps (rs.map List.length) n) ∧
      (¬ c.isInverse → lo = c.temps (rs.map List.length) n) := by
  have pos : ∀ r ∈ rs, 0 < r.length := fun r h => List.length_pos_iff.mpr (hr r h)
  cases c with
  | copy =>
    match rs, hf with
    | [a, b], hf => exact ⟨_, Takes.copy (β := β) hn a b rfl (pos a (by simp)) hf.symm, fun _ => rfl⟩
    | [], hf => exact False.elim hf
    | [_], hf => exact False.elim hf
    | [_, _, _], hf => exact False.elim hf
    | [_, _, _, _], hf => exact False.elim hf
    | [_, _, _, _, _], hf => exact False.elim hf
    | _ :: _ :: _ :: _ :: _ :: _ :: _, hf => exact False.elim hf
  | copyInv =>
    match rs, hf with
    | [a, b], hf => exact ⟨_, Takes.copyInv (β := β) hn a b rfl (pos a (by simp)) hf.symm, fun h => absurd trivial h⟩
    | [], hf => exact False.elim hf
    | [_], hf => exact False.elim hf
    | [_, _, _], hf => exact False.elim hf
    | [_, _, _, _], hf => exact False.elim hf
    | [_, _, _, _, _], hf => exact False.elim hf
    | _ :: _ :: _ :: _ :: _ :: _ :: _, hf => exact False.elim hf
  | rshift =>
    match rs, hf with
    | [a], hf =>
      by_cases h1 : a.length = 1
      · obtain ⟨q, rfl⟩ := List.length_eq_one_iff.mp h1
        exact ⟨0, (Takes.rshift1 (β := β) q).congr (by simp [Circ.elements, Count.rshift]) (le_refl _) (by omega), fun _ => by simp [Circ.temps]⟩
      · have := pos a (by simp)
        have e : Circ.rshift.temps ([a].map List.length) n = n - 1 := by simp only [Circ.temps, List.map_cons, List.map_nil, if_neg h1]
        rw [e]
        exact ⟨_, Takes.rshift (β := β) hn a rfl (by omega), fun _ => rfl⟩
    | [], hf => exact False.elim hf
    | [_, _], hf => exact False.elim hf
    | [_, _, _], hf => exact False.elim hf
    | [_, _, _, _], hf => exact False.elim hf
    | [_, _, _, _, _], hf => exact False.elim hf
    | _ :: _ :: _ :: _ :: _ :: _ :: _, hf => exact False.elim hf
  | lshift =>
    match rs, hf with
    | [a], hf => exact ⟨_, Takes.lshift (β := β) hn a rfl hf, fun h => absurd trivial h⟩
    | [], hf => exact False.elim hf
    | [_, _], hf => exact False.elim hf
    | [_, _, _], hf => exact False.elim hf
    | [_, _, _, _], hf => exact False.elim hf
    | [_, _, _, _, _], hf => exact False.elim hf
    | _ :: _ :: _ :: _ :: _ :: _ :: _, hf => exact False.elim hf
  | add =>
    match rs, hf with
    | [a, b, d], hf => exact ⟨_, Takes.add (β := β) hn a b d rfl (pos a (by simp)) hf.1 hf.2, fun _ => rfl⟩
    | [], hf => exact False.elim hf
    | [_], hf => exact False.elim hf
    | [_, _], hf => exact False.elim hf
    | [_, _, _, _], hf => exact False.elim hf
    | [_, _, _, _, _], hf => exact False.elim hf
    | _ :: _ :: _ :: _ :: _ :: _ :: _, hf => exact False.elim hf
  | addInv =>
    match rs, hf with
    | [a, b, d], hf => exact ⟨_, Takes.addInv (β := β) hn a b d rfl (pos a (by simp)) hf.1 hf.2, fun h => absurd trivial h⟩
    | [], hf => exact False.elim hf
    | [_], hf => exact False.elim hf
    | [_, _], hf => exact False.elim hf
    | [_, _, _, _], hf => exact False.elim hf
    | [_, _, _, _, _], hf => exact False.elim hf
    | _ :: _ :: _ :: _ :: _ :: _ :: _, hf => exact False.elim hf
  | addMod =>
    match rs, hf with
    | [a, b, d], hf => exact ⟨_, Takes.addMod (β := β) hn a b d (hr a (by simp)) hf.1 hf.2, fun _ => rfl⟩
    | [], hf => exact False.elim hf
    | [_], hf => exact False.elim hf
    | [_, _], hf => exact False.elim hf
    | [_, _, _, _], hf => exact False.elim hf
    | [_, _, _, _, _], hf => exact False.elim hf
    | _ :: _ :: _ :: _ :: _ :: _ :: _, hf => exact False.elim hf
  | addModInv =>
    match rs, hf with
    | [a, b, d], hf => exact ⟨_, Takes.addModInv (β := β) hn a b d (hr a (by simp)) hf.1 hf.2, fun h => absurd trivial h⟩
    | [], hf => exact False.elim hf
    | [_], hf => exact False.elim hf
    | [_, _], hf => exact False.elim hf
    | [_, _, _, _], hf => exact False.elim hf
    | [_, _, _, _, _], hf => exact False.elim hf
    | _ :: _ :: _ :: _ :: _ :: _ :: _, hf => exact False.elim hf
  | timesMod =>
    match rs, hf with
    | [a, b, d, e], hf => exact ⟨_, Takes.timesMod (β := β) hn a b d e (hr b (by simp)) (hr d (by simp)) hf.1 hf.2, fun _ => rfl⟩
    | [], hf => exact False.elim hf
    | [_], hf => exact False.elim hf
    | [_, _], hf => exact False.elim hf
    | [_, _, _], hf => exact False.elim hf
    | [_, _, _, _, _], hf => exact False.elim hf
    | _ :: _ :: _ :: _ :: _ :: _ :: _, hf => exact False.elim hf
  | timesModInv =>
    match rs, hf with
    | [a, b, d, e], hf => exact ⟨_, Takes.timesModInv (β := β) hn a b d e (hr b (by simp)) (hr d (by simp)) hf.1 hf.2, fun h => absurd trivial h⟩
    | [], hf => exact False.elim hf
    | [_], hf => exact False.elim hf
    | [_, _], hf => exact False.elim hf
    | [_, _, _], hf => exact False.elim hf
    | [_, _, _, _, _], hf => exact False.elim hf
    | _ :: _ :: _ :: _ :: _ :: _ :: _, hf => exact False.elim hf
  | squareMod =>
    match rs, hf with
    | [a, b, d], hf => exact ⟨_, Takes.squareMod (β := β) hn a b d (hr b (by simp)) hf.1 hf.2, fun _ => rfl⟩
    | [], hf => exact False.elim hf
    | [_], hf => exact False.elim hf
    | [_, _], hf => exact False.elim hf
    | [_, _, _, _], hf => exact False.elim hf
    | [_, _, _, _, _], hf => exact False.elim hf
    | _ :: _ :: _ :: _ :: _ :: _ :: _, hf => exact False.elim hf
  | squareModInv =>
    match rs, hf with
    | [a, b, d], hf => exact ⟨_, Takes.squareModInv (β := β) hn a b d (hr b (by simp)) hf.1 hf.2, fun h => absurd trivial h⟩
    | [], hf => exact False.elim hf
    | [_], hf => exact False.elim hf
    | [_, _], hf => exact False.elim hf
    | [_, _, _, _], hf => exact False.elim hf
    | [_, _, _, _, _], hf => exact False.elim hf
    | _ :: _ :: _ :: _ :: _ :: _ :: _, hf => exact False.elim hf
  | expMod =>
    match rs, hf with
    | [a, b, d, e, f], hf => exact ⟨_, Takes.expMod (β := β) hn a b d e f (hr b (by simp)) (hr d (by simp)) hf.1 hf.2.1 hf.2.2, fun _ => rfl⟩
    | [], hf => exact False.elim hf
    | [_], hf => exact False.elim hf
    | [_, _], hf => exact False.elim hf
    | [_, _, _], hf => exact False.elim hf
    | [_, _, _, _], hf => exact False.elim hf
    | _ :: _ :: _ :: _ :: _ :: _ :: _, hf => exact False.elim hf
  | expModInv =>
    match rs, hf with
    | [a, b, d, e, f], hf => exact ⟨_, Takes.expModInv (β := β) hn a b d e f (hr b (by simp)) (hr d (by simp)) hf.1 hf.2.1 hf.2.2, fun h => absurd trivial h⟩
    | [], hf => exact False.elim hf
    | [_], hf => exact False.elim hf
    | [_, _], hf => exact False.elim hf
    | [_, _, _], hf => exact False.elim hf
    | [_, _, _, _], hf => exact False.elim hf
    | _ :: _ :: _ :: _ :: _ :: _ :: _, hf => exact False.elim hf

end

/-! ## closed formulas -/

/-- a profile without other elements -/
def vec (x z s t h c r : ℕ) : Profile
  | .x => x | .z => z | .s => s | .t => t | .h => h | .cnot => c | .rz => r | .other => 0

theorem vec_add (x z s t h c r x' z' s' t' h' c' r' : ℕ) :
    vec x z s t h c r + vec x' z' s' t' h' c' r' = vec (x + x') (z + z') (s + s') (t + t') (h + h') (c + c') (r + r') := by
  funext k; cases k <;> rfl

theorem vec_smul (n x z s t h c r : ℕ) : n • vec x z s t h c r = vec (n * x) (n * z) (n * s) (n * t) (n * h) (n * c) (n * r) := by
  funext k; cases k <;> rfl

theorem sum_kind {α : Type} [AddCommMonoid α] (f : Kind → α) : ∑ k, f k = f .x + f .z + f .s + f .t + f .h + f .cnot + f .rz + f .other := by
  rw [show (Finset.univ : Finset Kind) = {.x, .z, .s, .t, .h, .cnot, .rz, .other} from rfl]
  repeat rw [Finset.sum_insert (by decide)]
  rw [Finset.sum_singleton]
  simp only [add_assoc]

theorem one_vec : one .x = vec 1 0 0 0 0 0 0 ∧ one .z = vec 0 1 0 0 0 0 0 ∧ one .s = vec 0 0 1 0 0 0 0 ∧ one .t = vec 0 0 0 1 0 0 0 ∧
    one .h = vec 0 0 0 0 1 0 0 ∧ one .cnot = vec 0 0 0 0 0 1 0 ∧ one .rz = vec 0 0 0 0 0 0 1 := by
  refine ⟨?_, ?_, ?_, ?_, ?_, ?_, ?_⟩ <;> (funext k; cases k <;> simp [one, vec])

theorem tof0_vec : tofP 0 = vec 1 0 0 0 0 0 0 := by rw [← one_vec.1]; exact one_smul _ _
theorem tof1_vec : tofP 1 = vec 0 0 0 0 0 1 0 := by rw [← one_vec.2.2.2.2.2.1]; exact one_smul _ _
theorem tof_vec (c : ℕ) : tofP (c + 2) = vec 0 (3 * (2 * c + 1)) (3 * (2 * c + 1)) (7 * (2 * c + 1)) (2 * (2 * c + 1)) (6 * (2 * c + 1)) 0 := by
  show (2 * c) • tof2 1 + tof2 1 = _
  funext k
  cases k <;> simp [tof2, vec] <;> ring

theorem total_vec (x z s t h c r : ℕ) : (vec x z s t h c r).total = x + z + s + t + h + c + r := by
  unfold Profile.total
  rw [sum_kind]
  rfl

theorem invP_vec (x z s t h c r : ℕ) : invP (vec x z s t h c r) = vec x (z + s + t) (s + t) t h c r := by
  unfold invP
  rw [sum_kind]
  funext k
  cases k <;> simp [vec, invK, one]

theorem condP0_vec (x z s t h c r : ℕ) : condP 0 (vec x z s t h c r) = vec x z s t h c r := by
  unfold condP condK
  rw [sum_kind]
  funext k
  cases k <;> simp [vec, one]

theorem condP_vec (j x z s t h c r : ℕ) : condP (j + 1) (vec x z s t h c r) =
    (x + z + h) • tofP (j + 1) + (2 * s + 2 * t + 2 * r + c) • tofP (j + 2) + vec 0 (2 * h) (s + 4 * h) t (2 * z + 4 * h) 0 (r + 2 * h) := by
  unfold condP condK
  rw [sum_kind]
  simp only [vec, Nat.succ_ne_zero, if_false, one_vec]
  simp only [zero_smul, add_zero, smul_add, smul_smul, vec_smul, add_smul]
  generalize tofP (j + 1) = P
  generalize tofP (j + 2) = R
  funext k
  cases k <;> simp [vec] <;> ring

theorem vec_congr {x z s t h c r x' z' s' t' h' c' r' : ℕ} (h1 : x = x') (h2 : z = z') (h3 : s = s') (h4 : t = t') (h5 : h = h') (h6 : c = c') (h7 : r = r') :
    vec x z s t h c r = vec x' z' s' t' h' c' r' := by subst h1 h2 h3 h4 h5 h6 h7; rfl

theorem tof2_vec : tofP 2 = vec 0 3 3 7 2 6 0 := tof_vec 0
theorem tof3_vec : tofP 3 = vec 0 9 9 21 6 18 0 := tof_vec 1
theorem tof4_vec : tofP 4 = vec 0 15 15 35 10 30 0 := tof_vec 2
theorem tof5_vec : tofP 5 = vec 0 21 21 49 14 42 0 := tof_vec 3
theorem condP1_vec (x z s t h c r : ℕ) : condP 1 (vec x z s t h c r) =
    (x + z + h) • tofP 1 + (2 * s + 2 * t + 2 * r + c) • tofP 2 + vec 0 (2 * h) (s + 4 * h) t (2 * z + 4 * h) 0 (r + 2 * h) := condP_vec 0 x z s t h c r
theorem condP2_vec (x z s t h c r : ℕ) : condP 2 (vec x z s t h c r) =
    (x + z + h) • tofP 2 + (2 * s + 2 * t + 2 * r + c) • tofP 3 + vec 0 (2 * h) (s + 4 * h) t (2 * z + 4 * h) 0 (r + 2 * h) := condP_vec 1 x z s t h c r
theorem condP3_vec (x z s t h c r : ℕ) : condP 3 (vec x z s t h c r) =
    (x + z + h) • tofP 3 + (2 * s + 2 * t + 2 * r + c) • tofP 4 + vec 0 (2 * h) (s + 4 * h) t (2 * z + 4 * h) 0 (r + 2 * h) := condP_vec 2 x z s t h c r

theorem add0_vec (m : ℕ) : Count.add (m + 1) 0 = vec (0 * m + 0) (32 * m + 6) (26 * m + 6) (28 * m + 14) (8 * m + 4) (30 * m + 16) (0 * m + 0) := by
  unfold Count.add Count.carry Count.sum Count.inv
  try simp only [Nat.reduceAdd]
  skip
  simp only [tof0_vec, tof1_vec, tof2_vec, tof3_vec, tof4_vec, tof5_vec, condP0_vec, condP1_vec, condP2_vec, condP3_vec, invP_vec, vec_smul, vec_add, Nat.add_sub_cancel]
  refine vec_congr ?_ ?_ ?_ ?_ ?_ ?_ ?_ <;> ring

theorem add1_vec (m : ℕ) : Count.add (m + 1) 1 = vec (0 * m + 0) (284 * m + 30) (312 * m + 30) (658 * m + 70) (252 * m + 20) (582 * m + 60) (8 * m + 0) := by
  unfold Count.add Count.carry Count.sum Count.inv
  try simp only [Nat.reduceAdd]
  skip
  simp only [tof0_vec, tof1_vec, tof2_vec, tof3_vec, tof4_vec, tof5_vec, condP0_vec, condP1_vec, condP2_vec, condP3_vec, invP_vec, vec_smul, vec_add, Nat.add_sub_cancel]
  refine vec_congr ?_ ?_ ?_ ?_ ?_ ?_ ?_ <;> ring

theorem add2_vec (m : ℕ) : Count.add (m + 1) 2 = vec (0 * m + 0) (902 * m + 66) (930 * m + 66) (2100 * m + 154) (664 * m + 44) (1788 * m + 132) (8 * m + 0) := by
  unfold Count.add Count.carry Count.sum Count.inv
  try simp only [Nat.reduceAdd]
  skip
  simp only [tof0_vec, tof1_vec, tof2_vec, tof3_vec, tof4_vec, tof5_vec, condP0_vec, condP1_vec, condP2_vec, condP3_vec, invP_vec, vec_smul, vec_add, Nat.add_sub_cancel]
  refine vec_congr ?_ ?_ ?_ ?_ ?_ ?_ ?_ <;> ring

theorem add3_vec (m : ℕ) : Count.add (m + 1) 3 = vec (0 * m + 0) (1610 * m + 102) (1638 * m + 102) (3752 * m + 238) (1136 * m + 68) (3204 * m + 204) (8 * m + 0) := by
  unfold Count.add Count.carry Count.sum Count.inv
  try simp only [Nat.reduceAdd]
  skip
  simp only [tof0_vec, tof1_vec, tof2_vec, tof3_vec, tof4_vec, tof5_vec, condP0_vec, condP1_vec, condP2_vec, condP3_vec, invP_vec, vec_smul, vec_add, Nat.add_sub_cancel]
  refine vec_congr ?_ ?_ ?_ ?_ ?_ ?_ ?_ <;> ring

theorem addInv0_vec (m : ℕ) : Count.inv (Count.add (m + 1) 0) 0 = vec (0 * m + 0) (86 * m + 26) (54 * m + 20) (28 * m + 14) (8 * m + 4) (30 * m + 16) (0 * m + 0) := by
  unfold Count.inv
  try simp only [Nat.reduceAdd]
  rw [add0_vec]
  simp only [tof0_vec, tof1_vec, tof2_vec, tof3_vec, tof4_vec, tof5_vec, condP0_vec, condP1_vec, condP2_vec, condP3_vec, invP_vec, vec_smul, vec_add, Nat.add_sub_cancel]
  refine vec_congr ?_ ?_ ?_ ?_ ?_ ?_ ?_ <;> ring

theorem addInv1_vec (m : ℕ) : Count.inv (Count.add (m + 1) 0) 1 = vec (0 * m + 0) (598 * m + 260) (668 * m + 288) (1386 * m + 602) (592 * m + 236) (1258 * m + 534) (16 * m + 8) := by
  unfold Count.inv
  try simp only [Nat.reduceAdd]
  rw [add0_vec]
  simp only [tof0_vec, tof1_vec, tof2_vec, tof3_vec, tof4_vec, tof5_vec, condP0_vec, condP1_vec, condP2_vec, condP3_vec, invP_vec, vec_smul, vec_add, Nat.add_sub_cancel]
  refine vec_congr ?_ ?_ ?_ ?_ ?_ ?_ ?_ <;> ring

theorem addInv2_vec (m : ℕ) : Count.inv (Count.add (m + 1) 0) 2 = vec (0 * m + 0) (2044 * m + 854) (2114 * m + 882) (4760 * m + 1988) (1556 * m + 632) (4056 * m + 1692) (16 * m + 8) := by
  unfold Count.inv
  try simp only [Nat.reduceAdd]
  rw [add0_vec]
  simp only [tof0_vec, tof1_vec, tof2_vec, tof3_vec, tof4_vec, tof5_vec, condP0_vec, condP1_vec, condP2_vec, condP3_vec, invP_vec, vec_smul, vec_add, Nat.add_sub_cancel]
  refine vec_congr ?_ ?_ ?_ ?_ ?_ ?_ ?_ <;> ring

theorem addMod0_vec (m : ℕ) : Count.addMod (m + 1) 0 = vec (0 * m + 2) (520 * m + 94) (472 * m + 82) (770 * m + 126) (284 * m + 36) (702 * m + 126) (8 * m + 0) := by
  unfold Count.addMod
  try simp only [Nat.reduceAdd]
  rw [addInv0_vec, add0_vec, add1_vec]
  simp only [tof0_vec, tof1_vec, tof2_vec, tof3_vec, tof4_vec, tof5_vec, condP0_vec, condP1_vec, condP2_vec, condP3_vec, invP_vec, vec_smul, vec_add, Nat.add_sub_cancel]
  refine vec_congr ?_ ?_ ?_ ?_ ?_ ?_ ?_ <;> ring

theorem addMod1_vec (m : ℕ) : Count.addMod (m + 1) 1 = vec (0 * m + 0) (2666 * m + 652) (2890 * m + 708) (6188 * m + 1512) (2352 * m + 560) (5468 * m + 1334) (56 * m + 16) := by
  unfold Count.addMod
  try simp only [Nat.reduceAdd]
  rw [addInv1_vec, add1_vec, add2_vec]
  simp only [tof0_vec, tof1_vec, tof2_vec, tof3_vec, tof4_vec, tof5_vec, condP0_vec, condP1_vec, condP2_vec, condP3_vec, invP_vec, vec_smul, vec_add, Nat.add_sub_cancel]
  refine vec_congr ?_ ?_ ?_ ?_ ?_ ?_ ?_ <;> ring

theorem addMod2_vec (m : ℕ) : Count.addMod (m + 1) 2 = vec (0 * m + 0) (7502 * m + 1966) (7726 * m + 2022) (17472 * m + 4578) (5576 * m + 1436) (14892 * m + 3900) (56 * m + 16) := by
  unfold Count.addMod
  try simp only [Nat.reduceAdd]
  rw [addInv2_vec, add2_vec, add3_vec]
  simp only [tof0_vec, tof1_vec, tof2_vec, tof3_vec, tof4_vec, tof5_vec, condP0_vec, condP1_vec, condP2_vec, condP3_vec, invP_vec, vec_smul, vec_add, Nat.add_sub_cancel]
  refine vec_congr ?_ ?_ ?_ ?_ ?_ ?_ ?_ <;> ring

theorem rshift0_vec (m : ℕ) : Count.rshift (m + 1 + 1) 0 = vec (0 * m + 0) (0 * m + 0) (0 * m + 0) (0 * m + 0) (0 * m + 0) (3 * m + 3) (0 * m + 0) := by
  unfold Count.rshift
  try simp only [Nat.reduceAdd]
  skip
  simp only [tof0_vec, tof1_vec, tof2_vec, tof3_vec, tof4_vec, tof5_vec, condP0_vec, condP1_vec, condP2_vec, condP3_vec, invP_vec, vec_smul, vec_add, Nat.add_sub_cancel]
  refine vec_congr ?_ ?_ ?_ ?_ ?_ ?_ ?_ <;> ring

theorem rshiftInv0_vec (m : ℕ) : Count.inv (Count.rshift (m + 1 + 1) 0) 0 = vec (0 * m + 0) (0 * m + 0) (0 * m + 0) (0 * m + 0) (0 * m + 0) (3 * m + 3) (0 * m + 0) := by
  unfold Count.inv
  try simp only [Nat.reduceAdd]
  rw [rshift0_vec]
  simp only [tof0_vec, tof1_vec, tof2_vec, tof3_vec, tof4_vec, tof5_vec, condP0_vec, condP1_vec, condP2_vec, condP3_vec, invP_vec, vec_smul, vec_add, Nat.add_sub_cancel]
  refine vec_congr ?_ ?_ ?_ ?_ ?_ ?_ ?_ <;> ring

theorem rshift1_vec (m : ℕ) : Count.rshift (m + 1 + 1) 1 = vec (0 * m + 0) (9 * m + 9) (9 * m + 9) (21 * m + 21) (6 * m + 6) (18 * m + 18) (0 * m + 0) := by
  unfold Count.rshift
  try simp only [Nat.reduceAdd]
  skip
  simp only [tof0_vec, tof1_vec, tof2_vec, tof3_vec, tof4_vec, tof5_vec, condP0_vec, condP1_vec, condP2_vec, condP3_vec, invP_vec, vec_smul, vec_add, Nat.add_sub_cancel]
  refine vec_congr ?_ ?_ ?_ ?_ ?_ ?_ ?_ <;> ring

theorem rshiftInv1_vec (m : ℕ) : Count.inv (Count.rshift (m + 1 + 1) 0) 1 = vec (0 * m + 0) (9 * m + 9) (9 * m + 9) (21 * m + 21) (6 * m + 6) (18 * m + 18) (0 * m + 0) := by
  unfold Count.inv
  try simp only [Nat.reduceAdd]
  rw [rshift0_vec]
  simp only [tof0_vec, tof1_vec, tof2_vec, tof3_vec, tof4_vec, tof5_vec, condP0_vec, condP1_vec, condP2_vec, condP3_vec, invP_vec, vec_smul, vec_add, Nat.add_sub_cancel]
  refine vec_congr ?_ ?_ ?_ ?_ ?_ ?_ ?_ <;> ring

theorem timesMod0_vec (m k : ℕ) : Count.timesMod (m + 1) k 0 = vec (k * (0 * m + 0)) (k * (3666 * m + 974)) (k * (3950 * m + 1052)) (k * (8288 * m + 2212)) (k * (3212 * m + 824)) (k * (7374 * m + 1968)) (k * (80 * m + 24)) := by
  unfold Count.timesMod
  try simp only [Nat.reduceAdd]
  rw [addInv0_vec, addInv1_vec, rshiftInv0_vec, add1_vec, addMod1_vec, rshift0_vec, add0_vec]
  simp only [tof0_vec, tof1_vec, tof2_vec, tof3_vec, tof4_vec, tof5_vec, condP0_vec, condP1_vec, condP2_vec, condP3_vec, invP_vec, vec_smul, vec_add, Nat.add_sub_cancel]
  refine vec_congr ?_ ?_ ?_ ?_ ?_ ?_ ?_ <;> ring

theorem timesMod1_vec (m k : ℕ) : Count.timesMod (m + 1) k 1 = vec (k * (0 * m + 0)) (k * (11348 * m + 3200)) (k * (11768 * m + 3312)) (k * (26418 * m + 7448)) (k * (8652 * m + 2384)) (k * (22612 * m + 6366)) (k * (104 * m + 32)) := by
  unfold Count.timesMod
  try simp only [Nat.reduceAdd]
  rw [addInv1_vec, addInv2_vec, rshiftInv1_vec, add2_vec, addMod2_vec, rshift1_vec, add1_vec]
  simp only [tof0_vec, tof1_vec, tof2_vec, tof3_vec, tof4_vec, tof5_vec, condP0_vec, condP1_vec, condP2_vec, condP3_vec, invP_vec, vec_smul, vec_add, Nat.add_sub_cancel]
  refine vec_congr ?_ ?_ ?_ ?_ ?_ ?_ ?_ <;> ring

theorem timesModInv1_vec (m : ℕ) : Count.inv (Count.timesMod (m + 1) (m + 1 + 1) 0) 1 = vec (0 * m ^ 2 + 0 * m + 0) (152182 * m ^ 2 + 344916 * m + 81104) (170844 * m ^ 2 + 387152 * m + 90928) (348390 * m ^ 2 + 789768 * m + 185976) (141828 * m ^ 2 + 321364 * m + 75416) (310632 * m ^ 2 + 704134 * m + 165740) (6504 * m ^ 2 + 14680 * m + 3344) := by
  unfold Count.inv
  try simp only [Nat.reduceAdd]
  rw [timesMod0_vec]
  simp only [tof0_vec, tof1_vec, tof2_vec, tof3_vec, tof4_vec, tof5_vec, condP0_vec, condP1_vec, condP2_vec, condP3_vec, invP_vec, vec_smul, vec_add, Nat.add_sub_cancel]
  refine vec_congr ?_ ?_ ?_ ?_ ?_ ?_ ?_ <;> ring

theorem squareMod0_vec (m : ℕ) : Count.squareMod (m + 1) 0 = vec (0 * m ^ 2 + 0 * m + 0) (3666 * m ^ 2 + 4640 * m + 974) (3950 * m ^ 2 + 5002 * m + 1052) (8288 * m ^ 2 + 10500 * m + 2212) (3212 * m ^ 2 + 4036 * m + 824) (7374 * m ^ 2 + 9344 * m + 1970) (80 * m ^ 2 + 104 * m + 24) := by
  unfold Count.squareMod Count.copy Count.inv
  try simp only [Nat.reduceAdd]
  rw [timesMod0_vec]
  simp only [tof0_vec, tof1_vec, tof2_vec, tof3_vec, tof4_vec, tof5_vec, condP0_vec, condP1_vec, condP2_vec, condP3_vec, invP_vec, vec_smul, vec_add, Nat.add_sub_cancel]
  refine vec_congr ?_ ?_ ?_ ?_ ?_ ?_ ?_ <;> ring

theorem squareModInv0_vec (m : ℕ) : Count.inv (Count.squareMod (m + 1) 0) 0 = vec (0 * m ^ 2 + 0 * m + 0) (15904 * m ^ 2 + 20142 * m + 4238) (12238 * m ^ 2 + 15502 * m + 3264) (8288 * m ^ 2 + 10500 * m + 2212) (3212 * m ^ 2 + 4036 * m + 824) (7374 * m ^ 2 + 9344 * m + 1970) (80 * m ^ 2 + 104 * m + 24) := by
  unfold Count.inv
  try simp only [Nat.reduceAdd]
  rw [squareMod0_vec]
  simp only [tof0_vec, tof1_vec, tof2_vec, tof3_vec, tof4_vec, tof5_vec, condP0_vec, condP1_vec, condP2_vec, condP3_vec, invP_vec, vec_smul, vec_add, Nat.add_sub_cancel]
  refine vec_congr ?_ ?_ ?_ ?_ ?_ ?_ ?_ <;> ring

theorem expLast0_vec (m : ℕ) : Count.expLast (m + 1) 0 = vec (0 * m ^ 2 + 0 * m + 2) (11348 * m ^ 2 + 25899 * m + 6406) (11768 * m ^ 2 + 26851 * m + 6630) (26418 * m ^ 2 + 60291 * m + 14910) (8652 * m ^ 2 + 19690 * m + 4772) (22612 * m ^ 2 + 51596 * m + 12744) (104 * m ^ 2 + 240 * m + 64) := by
  unfold Count.expLast Count.copy
  try simp only [Nat.reduceAdd]
  rw [timesMod1_vec]
  simp only [tof0_vec, tof1_vec, tof2_vec, tof3_vec, tof4_vec, tof5_vec, condP0_vec, condP1_vec, condP2_vec, condP3_vec, invP_vec, vec_smul, vec_add, Nat.add_sub_cancel]
  refine vec_congr ?_ ?_ ?_ ?_ ?_ ?_ ?_ <;> ring

theorem copyInv1_vec (m : ℕ) : Count.inv (Count.copy (m + 1 + 1) 0) 1 = vec (0 * m + 0) (3 * m + 6) (3 * m + 6) (7 * m + 14) (2 * m + 4) (6 * m + 12) (0 * m + 0) := by
  unfold Count.inv Count.copy
  try simp only [Nat.reduceAdd]
  skip
  simp only [tof0_vec, tof1_vec, tof2_vec, tof3_vec, tof4_vec, tof5_vec, condP0_vec, condP1_vec, condP2_vec, condP3_vec, invP_vec, vec_smul, vec_add, Nat.add_sub_cancel]
  refine vec_congr ?_ ?_ ?_ ?_ ?_ ?_ ?_ <;> ring

theorem expStep0_vec (m : ℕ) : Count.expStep (m + 1) 0 = vec (0 * m ^ 2 + 0 * m + 4) (183100 * m ^ 2 + 395600 * m + 92728) (198800 * m ^ 2 + 434510 * m + 101880) (391384 * m ^ 2 + 871066 * m + 205324) (156904 * m ^ 2 + 349128 * m + 81840) (347992 * m ^ 2 + 774424 * m + 182436) (6768 * m ^ 2 + 15128 * m + 3456) := by
  unfold Count.expStep
  try simp only [Nat.reduceAdd]
  rw [squareModInv0_vec, expLast0_vec, squareMod0_vec, timesModInv1_vec, copyInv1_vec]
  simp only [tof0_vec, tof1_vec, tof2_vec, tof3_vec, tof4_vec, tof5_vec, condP0_vec, condP1_vec, condP2_vec, condP3_vec, invP_vec, vec_smul, vec_add, Nat.add_sub_cancel]
  refine vec_congr ?_ ?_ ?_ ?_ ?_ ?_ ?_ <;> ring


end Verif
