import Verif.Spec.Struct
import Verif.Proofs.InvertFn
import Verif.Proofs.Runs

/-! # Structured programs: what they do does not depend on where their registers are -/

namespace Verif
open Classical

/-- the qubits renamed by `σ` and those in `f` flipped afterwards -/
def mv (σ : Equiv.Perm ℕ) (f : Asg) (x : Asg) : Asg := fun q => xor (x (σ.symm q)) (f q)

noncomputable def mvW (σ : Equiv.Perm ℕ) (f : Asg) : Wave →ₗ[ℂ] Wave := lift fun y => ket (mv σ f y)

@[simp] theorem mvW_ket (σ : Equiv.Perm ℕ) (f x : Asg) : mvW σ f (ket x) = ket (mv σ f x) := lift_ket _ _

theorem mv_at (σ : Equiv.Perm ℕ) (f x : Asg) (q : ℕ) : mv σ f x (σ q) = xor (x q) (f (σ q)) := by simp [mv]

theorem mv_ext {σ : Equiv.Perm ℕ} {x y : Asg} (h : ∀ q, x (σ q) = y (σ q)) : x = y := by
  funext q
  have := h (σ.symm q)
  simpa using this

theorem mv_injective (σ : Equiv.Perm ℕ) (f : Asg) : Function.Injective (mv σ f) := fun x y h => by
  funext q
  have := congrFun h (σ q)
  rw [mv_at, mv_at] at this
  revert this
  cases x q <;> cases y q <;> cases f (σ q) <;> simp

/-- `U'` is `U` with the qubits renamed -/
def Same (σ : Equiv.Perm ℕ) (f : Asg) (U U' : Asg → Wave) : Prop := ∀ x, U' (mv σ f x) = mvW σ f (U x)

section
variable {σ : Equiv.Perm ℕ} {f : Asg}

theorem Same.congr {U U' V V' : Asg → Wave} (h : Same σ f U U') (e : ∀ x, U x = V x) (e' : ∀ x, U' x = V' x) : Same σ f V V' := fun x => by
  rw [← e, ← e', h x]

theorem Same.map {φ φ' : Asg → Asg} (h : ∀ x, φ' (mv σ f x) = mv σ f (φ x)) : Same σ f (fun x => ket (φ x)) fun x => ket (φ' x) := fun x => by
  simp only [mvW_ket, h]

theorem Same.ket : Same σ f Verif.ket Verif.ket := fun x => by rw [mvW_ket]

theorem Same.compL {A A' : Wave →ₗ[ℂ] Wave} {U U' : Asg → Wave} (h : Same σ f U U') (h' : Same σ f (fun x => A (Verif.ket x)) fun x => A' (Verif.ket x)) :
    Same σ f (fun x => A (U x)) fun x => A' (U' x) := fun x => by
  have : A' ∘ₗ mvW σ f = mvW σ f ∘ₗ A := wave_ext fun y => by
    rw [LinearMap.comp_apply, mvW_ket]
    exact h' y
  simp only
  rw [h x, ← LinearMap.comp_apply, this]
  rfl

theorem Same.comp {U U' V V' : Asg → Wave} (h : Same σ f U U') (h' : Same σ f V V') : Same σ f (fun x => lift V (U x)) fun x => lift V' (U' x) :=
  h.compL fun x => by simpa using h' x

theorem Same.ite {U U' : Asg → Wave} (h : Same σ f U U') {P P' : Asg → Prop} (hP : ∀ x, P' (mv σ f x) ↔ P x) :
    Same σ f (fun x => if P x then U x else Verif.ket x) fun x => if P' x then U' x else Verif.ket x := fun x => by
  by_cases hp : P x
  · simp only [if_pos hp, if_pos ((hP x).mpr hp), h x]
  · simp only [if_neg hp, if_neg fun h => hp ((hP x).mp h), mvW_ket]

theorem Same.smul {U U' : Asg → Wave} (h : Same σ f U U') (c : ℂ) : Same σ f (fun x => c • U x) fun x => c • U' x := fun x => by
  simp only [map_smul, h x]

theorem mem_rename {r : Reg} {q : ℕ} : σ q ∈ r.map σ ↔ q ∈ r := by simp

theorem idxOf_rename (r : Reg) (q : ℕ) : (r.map σ).idxOf (σ q) = r.idxOf q := by
  induction r with
  | nil => rfl
  | cons p r ih =>
    by_cases h : p = q
    · subst h; simp
    · rw [List.map_cons, List.idxOf_cons_ne _ (fun e => h (σ.injective e)), List.idxOf_cons_ne _ h, ih]

theorem getD_rename {r : Reg} {i : ℕ} (h : i < r.length) : (r.map σ).getD i 0 = σ (r.getD i 0) := by
  rw [List.getD_eq_getElem _ _ (by simpa using h), List.getD_eq_getElem _ _ h, List.getElem_map]

theorem getD_mem {r : Reg} {i : ℕ} (h : i < r.length) : r.getD i 0 ∈ r := by
  rw [List.getD_eq_getElem _ _ h]
  exact List.getElem_mem _

theorem mv_kept {r : Reg} (hf : ∀ q ∈ r, f (σ q) = false) (x : Asg) {q : ℕ} (hq : q ∈ r) : mv σ f x (σ q) = x q := by
  rw [mv_at, hf q hq, Bool.xor_false]

theorem readQ_rename {r : Reg} (hf : ∀ q ∈ r, f (σ q) = false) (x : Asg) : readQ (r.map σ) (mv σ f x) = readQ r x := by
  unfold readQ
  rw [List.foldl_map]
  refine List.foldl_ext _ _ _ fun a q hq => ?_
  rw [mv_kept hf x hq]

theorem writeQ_rename {r : Reg} (hf : ∀ q ∈ r, f (σ q) = false) (v : ℕ) (x : Asg) : writeQ (r.map σ) v (mv σ f x) = mv σ f (writeQ r v x) :=
  mv_ext (σ := σ) fun q => by
    rw [mv_at]
    unfold writeQ
    by_cases hq : q ∈ r
    · rw [if_pos (mem_rename.mpr hq), if_pos hq, idxOf_rename, List.length_map, hf q hq, Bool.xor_false]
    · rw [if_neg fun h => hq (mem_rename.mp h), if_neg hq, mv_at]

theorem Same.gate {r : Reg} (hf : ∀ q ∈ r, f (σ q) = false) (d : ℕ → ℕ → ℂ) :
    Same σ f (fun x => gateW r d (Verif.ket x)) fun x => gateW (r.map σ) d (Verif.ket x) := fun x => by
  simp only
  rw [gateW_ket, gateW_ket, map_sum, List.length_map]
  refine Finset.sum_congr rfl fun v _ => ?_
  rw [map_smul, mvW_ket, readQ_rename hf, writeQ_rename hf]

theorem Same.each (d : ℕ → ℕ → ℂ) {r : Reg} (hf : ∀ q ∈ r, f (σ q) = false) :
    Same σ f (fun x => eachW d r (Verif.ket x)) fun x => eachW d (r.map σ) (Verif.ket x) := by
  induction r with
  | nil => exact Same.ket
  | cons q r ih =>
    exact (Same.gate (r := [q]) (fun p hp => hf p (by simp at hp; simp [hp])) d).compL (A := eachW d r) (A' := eachW d (r.map σ))
      (ih fun p hp => hf p (by simp [hp]))

theorem Same.turns {r : Reg} (hf : ∀ q ∈ r, f (σ q) = false) : Same σ f (fun x => turnsW r (Verif.ket x)) fun x => turnsW (r.map σ) (Verif.ket x) := by
  induction r with
  | nil => exact Same.ket
  | cons q r ih =>
    have hq : ∀ p ∈ [q], f (σ p) = false := fun p hp => hf p (by simp at hp; simp [hp])
    refine (((Same.gate (r := [q]) hq (rzMat (1 - 1 / 2 ^ r.length))).compL (A := gateW [q] (Named.mat .h)) (A' := gateW ([q].map σ) (Named.mat .h))
      (Same.gate (r := [q]) hq _)).compL (A := turnsW r) (A' := turnsW (r.map σ)) (ih fun p hp => hf p (by simp [hp]))).congr (fun x => rfl) fun x => ?_
    show _ = turnsW (σ q :: r.map σ) _
    simp only [turnsW, List.length_map]
    rfl

theorem all_rename {c : Reg} (hf : ∀ q ∈ c, f (σ q) = false) (x : Asg) : (∀ q ∈ c.map σ, mv σ f x q = true) ↔ ∀ q ∈ c, x q = true := by
  rw [List.forall_mem_map]
  exact forall₂_congr fun q hq => by rw [mv_kept hf x hq]

theorem flipAll_rename (r : Reg) (x : Asg) : flipAll (r.map σ) (mv σ f x) = mv σ f (flipAll r x) := mv_ext (σ := σ) fun q => by
  rw [mv_at]
  unfold flipAll
  by_cases hq : q ∈ r
  · rw [if_pos (mem_rename.mpr hq), if_pos hq, mv_at, Bool.not_xor]
  · rw [if_neg fun h => hq (mem_rename.mp h), if_neg hq, mv_at]

theorem Same.flipIf (v : ℂ) {c r : Reg} (hf : ∀ q ∈ c, f (σ q) = false) : Same σ f (Verif.flipIf v c r) (Verif.flipIf v (c.map σ) (r.map σ)) :=
  (((Same.map (flipAll_rename (σ := σ) (f := f) r)).smul v).ite (P := fun x => ∀ q ∈ c, x q = true) (P' := fun x => ∀ q ∈ c.map σ, x q = true) (all_rename hf)).congr (fun x => by unfold Verif.flipIf; split_ifs <;> rfl)
    fun x => by unfold Verif.flipIf; split_ifs <;> rfl

theorem Same.turnIf {c : Reg} {q : ℕ} (hf : ∀ q ∈ c, f (σ q) = false) (hq : f (σ q) = false) : Same σ f (Verif.turnIf c q) (Verif.turnIf (c.map σ) (σ q)) :=
  ((Same.gate (r := [q]) (by simpa using hq) _).ite (P := fun x => ∀ q ∈ c, x q = true) (P' := fun x => ∀ q ∈ c.map σ, x q = true) (all_rename hf)).congr (fun x => by unfold Verif.turnIf; split_ifs <;> rfl)
    fun x => by unfold Verif.turnIf; split_ifs <;> rfl

theorem swapMap_rename {a b : Reg} (hl : a.length = b.length) (hf : ∀ q ∈ a ++ b, f (σ q) = false) (x : Asg) :
    swapMap (a.map σ) (b.map σ) (mv σ f x) = mv σ f (swapMap a b x) := mv_ext (σ := σ) fun q => by
  rw [mv_at]
  unfold swapMap
  by_cases h1 : q ∈ a
  · have hi := List.idxOf_lt_length_iff.mpr h1
    rw [if_pos (mem_rename.mpr h1), if_pos h1, idxOf_rename, getD_rename (by omega), mv_kept hf x (List.mem_append_right _ (getD_mem (by omega))),
      hf q (by simp [h1]), Bool.xor_false]
  · rw [if_neg fun h => h1 (mem_rename.mp h), if_neg h1]
    by_cases h2 : q ∈ b
    · have hi := List.idxOf_lt_length_iff.mpr h2
      rw [if_pos (mem_rename.mpr h2), if_pos h2, idxOf_rename, getD_rename (by omega), mv_kept hf x (List.mem_append_left _ (getD_mem (by omega))),
        hf q (by simp [h2]), Bool.xor_false]
    · rw [if_neg fun h => h2 (mem_rename.mp h), if_neg h2, mv_at]

theorem xorMap_rename {a b : Reg} (hl : a.length = b.length) (hf : ∀ q ∈ a ++ b, f (σ q) = false) (x : Asg) :
    xorMap (a.map σ) (b.map σ) (mv σ f x) = mv σ f (xorMap a b x) := mv_ext (σ := σ) fun q => by
  rw [mv_at]
  unfold xorMap
  by_cases h2 : q ∈ b
  · have hi := List.idxOf_lt_length_iff.mpr h2
    rw [if_pos (mem_rename.mpr h2), if_pos h2, idxOf_rename, getD_rename (by omega), mv_kept hf x (q := q) (List.mem_append_right _ h2),
      mv_kept hf x (List.mem_append_left _ (getD_mem (by omega))), hf q (by simp [h2]), Bool.xor_false]
  · rw [if_neg fun h => h2 (mem_rename.mp h), if_neg h2, mv_at]

theorem rotate_rename (k : ℕ) {r : Reg} (hf : ∀ q ∈ r, f (σ q) = false) (x : Asg) : rotate k (r.map σ) (mv σ f x) = mv σ f (rotate k r x) :=
  mv_ext (σ := σ) fun q => by
    rw [mv_at]
    unfold rotate
    by_cases h : q ∈ r
    · have hi := Nat.mod_lt (r.idxOf q + (r.length - k % r.length)) (List.length_pos_of_mem h)
      rw [if_pos (mem_rename.mpr h), if_pos h, idxOf_rename, List.length_map, getD_rename hi, mv_kept hf x (getD_mem hi), hf q h, Bool.xor_false]
    · rw [if_neg fun h' => h (mem_rename.mp h'), if_neg h, mv_at]

theorem reverseMap_rename {r : Reg} (hf : ∀ q ∈ r, f (σ q) = false) (x : Asg) : reverseMap (r.map σ) (mv σ f x) = mv σ f (reverseMap r x) :=
  mv_ext (σ := σ) fun q => by
    rw [mv_at]
    unfold reverseMap
    by_cases h : q ∈ r
    · have hi : r.length - 1 - r.idxOf q < r.length := by have := List.length_pos_of_mem h; omega
      rw [if_pos (mem_rename.mpr h), if_pos h, idxOf_rename, List.length_map, getD_rename hi, mv_kept hf x (getD_mem hi), hf q h, Bool.xor_false]
    · rw [if_neg fun h' => h (mem_rename.mp h'), if_neg h, mv_at]

theorem negMask_rename (m : ℕ) (r : Reg) (x : Asg) : negMask (r.map σ) m (mv σ f x) = mv σ f (negMask r m x) :=
  mv_ext (σ := σ) fun q => by
    rw [mv_at]
    unfold negMask
    rw [idxOf_rename, mv_at]
    by_cases h : q ∈ r ∧ m.testBit (r.idxOf q) = false
    · rw [if_pos ⟨mem_rename.mpr h.1, h.2⟩, if_pos h, Bool.not_xor]
    · rw [if_neg fun h' => h ⟨mem_rename.mp h'.1, h'.2⟩, if_neg h]

theorem update_rename {d : ℕ} (hd : f (σ d) = false) (v : Bool) (x : Asg) : Function.update (mv σ f x) (σ d) v = mv σ f (Function.update x d v) :=
  mv_ext (σ := σ) fun q => by
    rw [mv_at]
    by_cases h : q = d
    · subst h
      rw [Function.update_self, Function.update_self, hd, Bool.xor_false]
    · rw [Function.update_of_ne (fun e => h (σ.injective e)), Function.update_of_ne h, mv_at]

theorem sumMap_rename {c a b : ℕ} (hf : ∀ q ∈ [c, a, b], f (σ q) = false) (x : Asg) : sumMap (σ c) (σ a) (σ b) (mv σ f x) = mv σ f (sumMap c a b x) := by
  unfold sumMap
  rw [mv_kept hf x (q := a) (by simp), mv_kept hf x (q := b) (by simp), mv_kept hf x (q := c) (by simp), update_rename (hf b (by simp))]

theorem carryMap_rename {c a b d : ℕ} (hf : ∀ q ∈ [c, a, b, d], f (σ q) = false) (x : Asg) :
    carryMap (σ c) (σ a) (σ b) (σ d) (mv σ f x) = mv σ f (carryMap c a b d x) := by
  unfold carryMap
  rw [mv_kept hf x (q := a) (by simp), mv_kept hf x (q := b) (by simp), mv_kept hf x (q := c) (by simp), mv_kept hf x (q := d) (by simp),
    update_rename (hf d (by simp))]

theorem addMap_rename (c0 : ℕ) (ct a b : Reg) (ha : a.length = ct.length + 1) (hb : b.length = ct.length + 2)
    (hf : ∀ q ∈ (c0 :: ct) ++ a ++ b, f (σ q) = false) (x : Asg) :
    addMap ((c0 :: ct).map σ) (a.map σ) (b.map σ) (mv σ f x) = mv σ f (addMap (c0 :: ct) a b x) ∧
      subMap ((c0 :: ct).map σ) (a.map σ) (b.map σ) (mv σ f x) = mv σ f (subMap (c0 :: ct) a b x) := by
  induction ct generalizing c0 a b x with
  | nil =>
    obtain ⟨a, rfl⟩ := List.length_eq_one_iff.mp ha
    obtain ⟨b, b', rfl⟩ := List.length_eq_two.mp hb
    have h1 : ∀ q ∈ [c0, a, b, b'], f (σ q) = false := fun q hq => hf q (by simpa using hq)
    have h2 : ∀ q ∈ [c0, a, b], f (σ q) = false := fun q hq => hf q (by simp at hq ⊢; tauto)
    simp only [List.map_cons, List.map_nil, addMap, subMap]
    exact ⟨by rw [carryMap_rename h1, sumMap_rename h2], by rw [sumMap_rename h2, carryMap_rename h1]⟩
  | cons c' ct ih =>
    obtain ⟨a, as, rfl⟩ := List.exists_cons_of_length_eq_add_one ha
    obtain ⟨b, bs, rfl⟩ := List.exists_cons_of_length_eq_add_one hb
    have h1 : ∀ q ∈ [c0, a, b, c'], f (σ q) = false := fun q hq => hf q (by simp at hq ⊢; tauto)
    have h2 : ∀ q ∈ [c0, a, b], f (σ q) = false := fun q hq => hf q (by simp at hq ⊢; tauto)
    have i := fun x => ih c' as bs (by simpa using ha) (by simpa using hb) (fun q hq => hf q (by simp at hq ⊢; tauto)) x
    simp only [List.map_cons, addMap, subMap] at i ⊢
    exact ⟨by rw [carryMap_rename h1, (i _).1, carryMap_rename h1, sumMap_rename h2],
      by rw [sumMap_rename h2, carryMap_rename h1, (i _).2, carryMap_rename h1]⟩

theorem valQ_rename {r : Reg} (hf : ∀ q ∈ r, f (σ q) = false) (x : Asg) : valQ (r.map σ) (mv σ f x) = valQ r x := by
  induction r with
  | nil => rfl
  | cons q r ih =>
    rw [List.map_cons]
    unfold valQ
    rw [ih fun p hp => hf p (by simp [hp]), mv_kept hf x (q := q) (by simp)]

theorem holds_rename {m : Option ℕ} {c : Reg} (hf : ∀ q ∈ c, f (σ q) = false) (x : Asg) : Holds m (c.map σ) (mv σ f x) ↔ Holds m c x := by
  unfold Holds
  cases m with
  | none => exact all_rename hf x
  | some m => simp only; rw [valQ_rename hf, List.length_map]


theorem three_ones {rs : List Reg} (h : rs.map List.length = [1, 1, 1]) : ∃ c a b, rs = [[c], [a], [b]] := by
  obtain ⟨c, rs, rfl, hc, h⟩ := List.map_eq_cons_iff.mp h
  obtain ⟨a, rs, rfl, ha, h⟩ := List.map_eq_cons_iff.mp h
  obtain ⟨b, rs, rfl, hb, h⟩ := List.map_eq_cons_iff.mp h
  obtain rfl := List.map_eq_nil_iff.mp h
  obtain ⟨c, rfl⟩ := List.length_eq_one_iff.mp hc
  obtain ⟨a, rfl⟩ := List.length_eq_one_iff.mp ha
  obtain ⟨b, rfl⟩ := List.length_eq_one_iff.mp hb
  exact ⟨c, a, b, rfl⟩

theorem four_ones {rs : List Reg} (h : rs.map List.length = [1, 1, 1, 1]) : ∃ c a b d, rs = [[c], [a], [b], [d]] := by
  obtain ⟨c, rs, rfl, hc, h⟩ := List.map_eq_cons_iff.mp h
  obtain ⟨a, b, d, rfl⟩ := three_ones h
  obtain ⟨c, rfl⟩ := List.length_eq_one_iff.mp hc
  exact ⟨c, a, b, d, rfl⟩

theorem cons_of_ne {c : Reg} (h : c ≠ []) : ∃ c0 ct, c = c0 :: ct := List.exists_cons_of_ne_nil h

theorem Method.wave_same (m : Method) (inside : Bool) (rs : List Reg) (h : m.Takes inside rs) (hf : ∀ q ∈ rs.flatten, f (σ q) = false) :
    Same σ f (m.wave inside rs) (m.wave inside (rs.map (List.map σ))) := by
  have one : ∀ {r : Reg} (d : ℕ → ℕ → ℂ), (∀ q ∈ [r].flatten, f (σ q) = false) →
      Same σ f (fun x => gateW r d (ket x)) fun x => gateW (r.map σ) d (ket x) := fun d hf => Same.gate (fun q hq => hf q (by simpa using hq)) d
  unfold Method.Takes at h
  split at h
  · exact Same.each _ fun q hq => hf q (by simpa using hq)
  · exact Same.flipIf _ fun q hq => hf q (by simp [hq])
  · exact Same.map fun x => swapMap_rename h.2 (fun q hq => hf q (by simpa using hq)) x
  · rename_i c r
    by_cases hi : inside = true ∧ c.length = 2
    · rcases h.2.2 hi.1 with h | h
      · omega
      · obtain ⟨q, rfl⟩ := List.length_eq_one_iff.mp h.2
        refine (Same.turnIf (c := c) (q := q) (fun q hq => hf q (by simp [hq])) (hf q (by simp))).congr (fun x => ?_) fun x => ?_
        · exact (if_pos hi).symm
        · exact (if_pos (c := inside = true ∧ (c.map σ).length = 2) ⟨hi.1, by simpa using hi.2⟩).symm
    · refine (Same.flipIf (if c.length = 1 then 1 else (-Complex.I) ^ (r.length - 1)) (c := c) (r := r) fun q hq => hf q (by simp [hq])).congr
        (fun x => (if_neg hi).symm) fun x => ?_
      simp only [Method.wave, List.map_cons, List.map_nil, List.length_map]
      rw [if_neg hi]
  · exact Same.map fun x => negMask_rename _ _ x
  · obtain ⟨c, a, b, rfl⟩ := three_ones h
    exact Same.map fun x => sumMap_rename (fun q hq => hf q (by simpa using hq)) x
  · obtain ⟨c, a, b, d, rfl⟩ := four_ones h
    exact Same.map fun x => carryMap_rename (fun q hq => hf q (by simpa using hq)) x
  · exact Same.map fun x => xorMap_rename h.2 (fun q hq => hf q (by simpa using hq)) x
  · exact Same.map fun x => rotate_rename 1 (fun q hq => hf q (by simpa using hq)) x
  · exact one _ hf
  · exact one _ hf
  · exact one _ hf
  · exact one _ hf
  · exact one _ hf
  · exact one _ hf
  · exact one _ hf
  · exact one _ hf
  · exact one _ hf
  · exact one _ hf
  · exact one _ hf
  · obtain ⟨c, a, b, d, rfl⟩ := four_ones h.2
    exact Same.map fun x => carryMap_rename (fun q hq => hf q (by simpa using hq)) x
  · obtain ⟨c0, ct, rfl⟩ := cons_of_ne h.2.1
    exact Same.map fun x => (addMap_rename c0 ct _ _ (by simpa using h.2.2.1) (by simpa using h.2.2.2) (fun q hq => hf q (by simpa using hq)) x).1
  · obtain ⟨c0, ct, rfl⟩ := cons_of_ne h.2.1
    exact Same.map fun x => (addMap_rename c0 ct _ _ (by simpa using h.2.2.1) (by simpa using h.2.2.2) (fun q hq => hf q (by simpa using hq)) x).2
  · rename_i r
    refine (Same.map (φ := rotate (r.length - 1) r) (φ' := rotate (r.length - 1) (r.map σ)) fun x => rotate_rename _ (fun q hq => hf q (by simpa using hq)) x).congr
      (fun x => rfl) fun x => ?_
    simp [Method.wave]
  · exact Same.map fun x => xorMap_rename h.2.2 (fun q hq => hf q (by simpa using hq)) x
  · rename_i r
    have hf' : ∀ q ∈ r, f (σ q) = false := fun q hq => hf q (by simpa using hq)
    exact (Same.turns hf').comp (Same.map (reverseMap_rename hf'))
  · exact h.elim

theorem Same.dagger {Q : List ℕ} {U U' : Asg → Wave} (h : Same σ f U U') (hf : ∀ q ∈ Q, f (σ q) = false) :
    Same σ f (daggerW Q U) (daggerW (Q.map σ) U') := fun x => by
  unfold daggerW
  rw [List.length_map, map_sum]
  refine Finset.sum_congr rfl fun v _ => ?_
  rw [map_smul, mvW_ket, writeQ_rename hf, h]
  congr 2
  have : mvW σ f = Finsupp.lmapDomain ℂ ℂ (mv σ f) := wave_ext fun y => by
    rw [mvW_ket, Finsupp.lmapDomain_apply]
    unfold Verif.ket
    rw [Finsupp.mapDomain_single]
  rw [this, Finsupp.lmapDomain_apply, Finsupp.mapDomain_apply (mv_injective σ f)]

/-! ## the registers of lines -/

theorem getD_length {rs rs' : List Reg} (h : rs'.map List.length = rs.map List.length) (i : ℕ) : (rs'.getD i []).length = (rs.getD i []).length := by
  have e : ∀ l : List Reg, (l.getD i []).length = (l.map List.length).getD i 0 := fun l => by
    by_cases hi : i < l.length
    · rw [List.getD_eq_getElem _ _ hi, List.getD_eq_getElem _ _ (by simpa using hi), List.getElem_map]
    · rw [List.getD_eq_default _ _ (by omega), List.getD_eq_default _ _ (by simpa using hi)]
      rfl
  rw [e, e, h]

theorem groupPos_congr {rs rs' : List Reg} (h : rs'.map List.length = rs.map List.length) (g : List Sel) : groupPos rs' g = groupPos rs g := by
  unfold groupPos
  refine List.flatMap_congr fun s _ => ?_
  unfold selPos
  rw [getD_length h]


theorem groupReg_length (rs : List Reg) (g : List Sel) : (groupReg rs g).length = (groupPos rs g).length := by simp [groupReg]

theorem hasPos_congr {rs rs' : List Reg} (h : rs'.map List.length = rs.map List.length) (p : ℕ × ℕ) (hp : HasPos rs p) : HasPos rs' p := by
  have h1 : rs'.length = rs.length := by simpa using congrArg List.length h
  unfold HasPos at hp ⊢
  rw [h1, getD_length h]
  exact hp

theorem ValidGroups.congr {rs rs' : List Reg} (h : rs'.map List.length = rs.map List.length) {gs : List (List Sel)} (hv : ValidGroups rs gs) :
    ValidGroups rs' gs := by
  have h1 : rs'.length = rs.length := by simpa using congrArg List.length h
  have h2 : groupPos rs' = groupPos rs := funext (groupPos_congr h)
  exact ⟨by rw [h2]; exact hv.ne, by rw [h2]; exact hv.nodup, by rw [h1]; exact hv.reg,
    fun p hp => hasPos_congr h p (hv.pos p (by rw [h2] at hp; exact hp))⟩

theorem groups_lengths {rs rs' : List Reg} (h : rs'.map List.length = rs.map List.length) (gs : List (List Sel)) :
    (gs.map (groupReg rs')).map List.length = (gs.map (groupReg rs)).map List.length := by
  rw [List.map_map, List.map_map]
  refine List.map_congr_left fun g _ => ?_
  simp only [Function.comp_apply, groupReg_length, groupPos_congr h]

theorem lengths_rename (rs : List Reg) : (rs.map (List.map σ)).map List.length = rs.map List.length := by
  rw [List.map_map]
  exact List.map_congr_left fun r _ => by simp

theorem flatten_rename (rs : List Reg) : (rs.map (List.map σ)).flatten = rs.flatten.map σ := List.map_flatten.symm

theorem groupReg_rename (rs : List Reg) (g : List Sel) (h : ∀ p ∈ groupPos rs g, HasPos rs p) :
    groupReg (rs.map (List.map σ)) g = (groupReg rs g).map σ := by
  unfold groupReg
  rw [groupPos_congr (lengths_rename rs), List.map_map]
  refine List.map_congr_left fun p hp => ?_
  obtain ⟨h1, h2⟩ := h p hp
  unfold qubitAt
  have e : (rs.map (List.map σ)).getD p.1 [] = (rs.getD p.1 []).map σ := by
    rw [List.getD_eq_getElem _ _ (by simpa using h1), List.getElem_map, List.getD_eq_getElem rs _ h1]
  rw [e, getD_rename h2]
  rfl

theorem groups_rename (rs : List Reg) {gs : List (List Sel)} (h : ValidGroups rs gs) :
    gs.map (groupReg (rs.map (List.map σ))) = (gs.map (groupReg rs)).map (List.map σ) := by
  rw [List.map_map]
  exact List.map_congr_left fun g hg => groupReg_rename rs g fun p hp => h.pos p (List.mem_flatMap.mpr ⟨g, hg, hp⟩)

/-- the qubits of groups are qubits of the registers -/
theorem groups_sub (rs : List Reg) {gs : List (List Sel)} (h : ValidGroups rs gs) : ∀ q ∈ (gs.map (groupReg rs)).flatten, q ∈ rs.flatten := by
  intro q hq
  simp only [List.mem_flatten, List.mem_map] at hq
  obtain ⟨_, ⟨g, hg, rfl⟩, hq⟩ := hq
  unfold groupReg at hq
  obtain ⟨p, hp, rfl⟩ := List.mem_map.mp hq
  obtain ⟨h1, h2⟩ := h.pos p (List.mem_flatMap.mpr ⟨g, hg, hp⟩)
  unfold qubitAt
  rw [List.getD_eq_getElem _ _ h1] at h2 ⊢
  exact List.mem_flatten.mpr ⟨_, List.getElem_mem h1, getD_mem h2⟩

theorem Method.takes_congr {m : Method} {inside : Bool} {rs rs' : List Reg} (hl : rs'.map List.length = rs.map List.length) (h : m.Takes inside rs) :
    m.Takes inside rs' := by
  have ne : ∀ {r r' : Reg}, r'.length = r.length → (r ≠ [] → r' ≠ []) := fun {r r'} e h => by
    intro h'
    subst h'
    exact h (List.length_eq_zero_iff.mp e.symm)
  have one : ∀ {r : Reg}, rs'.map List.length = [r].map List.length → ∃ r', rs' = [r'] ∧ r'.length = r.length := fun h => by
    obtain ⟨r', t, rfl, hr, h⟩ := List.map_eq_cons_iff.mp h
    obtain rfl := List.map_eq_nil_iff.mp h
    exact ⟨r', rfl, hr⟩
  have two : ∀ {a b : Reg}, rs'.map List.length = [a, b].map List.length → ∃ a' b', rs' = [a', b'] ∧ a'.length = a.length ∧ b'.length = b.length := fun h => by
    obtain ⟨r', t, rfl, hr, h⟩ := List.map_eq_cons_iff.mp h
    obtain ⟨r'', t, rfl, hr', h⟩ := List.map_eq_cons_iff.mp h
    obtain rfl := List.map_eq_nil_iff.mp h
    exact ⟨r', r'', rfl, hr, hr'⟩
  have three : ∀ {a b c : Reg}, rs'.map List.length = [a, b, c].map List.length →
      ∃ a' b' c', rs' = [a', b', c'] ∧ a'.length = a.length ∧ b'.length = b.length ∧ c'.length = c.length := fun h => by
    obtain ⟨r', t, rfl, hr, h⟩ := List.map_eq_cons_iff.mp h
    obtain ⟨r'', t, rfl, hr', h⟩ := List.map_eq_cons_iff.mp h
    obtain ⟨r''', t, rfl, hr'', h⟩ := List.map_eq_cons_iff.mp h
    obtain rfl := List.map_eq_nil_iff.mp h
    exact ⟨r', r'', r''', rfl, hr, hr', hr''⟩
  unfold Method.Takes at h
  split at h
  all_goals first
    | exact h.elim
    | (obtain ⟨r', rfl, e⟩ := one hl
       simp only [Method.Takes, e]
       first
         | exact h
         | exact ne e h
         | exact ⟨ne e h.1, h.2⟩
         | exact ⟨h.1, ne e h.2⟩
         | exact ⟨h.1, ne e h.2.1, h.2.2⟩)
    | (obtain ⟨a', b', rfl, e1, e2⟩ := two hl
       simp only [Method.Takes, e1, e2]
       first
         | exact ⟨ne e1 h.1, h.2⟩
         | exact ⟨h.1, ne e2 h.2⟩
         | exact ⟨ne e1 h.1, ne e2 h.2.1, h.2.2⟩
         | exact ⟨h.1, ne e1 h.2.1, h.2.2⟩)
    | (obtain ⟨a', b', c', rfl, e1, e2, e3⟩ := three hl
       simp only [Method.Takes, e1, e2, e3]
       exact ⟨h.1, ne e1 h.2.1, h.2.2⟩)
    | (simp only [Method.Takes, hl]; exact h)

mutual
theorem Prog.takes_congr : (p : Prog) → (inside : Bool) → (rs rs' : List Reg) → rs'.map List.length = rs.map List.length → p.Takes inside rs →
    p.Takes inside rs'
  | .call m, inside, rs, rs', hl, h => by
    simp only [Prog.Takes] at h ⊢
    exact Method.takes_congr hl h
  | .seq p q, inside, rs, rs', hl, h => by
    simp only [Prog.Takes] at h ⊢
    exact ⟨p.takes_congr _ _ _ hl h.1, q.takes_congr _ _ _ hl h.2⟩
  | .cond p, inside, [], rs', hl, h => by simp [Prog.Takes] at h
  | .cond p, inside, cr :: rs, rs', hl, h => by
    obtain ⟨cr', t, rfl, hr, hl⟩ := List.map_eq_cons_iff.mp hl
    simp only [Prog.Takes] at h ⊢
    refine ⟨fun e => h.1 ?_, p.takes_congr _ _ _ hl h.2⟩
    subst e
    exact List.length_eq_zero_iff.mp hr.symm
  | .prog ls, inside, rs, rs', hl, h => by
    simp only [Prog.Takes] at h ⊢
    refine ⟨fun r hr e => ?_, ls.takes_congr _ _ _ hl h.2⟩
    subst e
    have : 0 ∈ rs.map List.length := by rw [← hl]; exact List.mem_map.mpr ⟨[], hr, rfl⟩
    obtain ⟨r, hr, e⟩ := List.mem_map.mp this
    exact h.1 r hr (List.length_eq_zero_iff.mp e)
  | .sized F, inside, rs, rs', hl, h => by
    simp only [Prog.Takes] at h ⊢
    rw [hl]
    exact (F _).takes_congr _ _ _ hl h
  | .inv attr p, inside, rs, rs', hl, h => by
    simp only [Prog.Takes] at h ⊢
    have h1 : rs'.length = rs.length := by simpa using congrArg List.length hl
    rw [hl, List.length_flatten, hl, ← List.length_flatten]
    refine ⟨h.1, fun e => h.2.1 ?_, fun r hr e => ?_, h.2.2.2⟩
    · subst e
      exact List.length_eq_zero_iff.mp h1.symm
    · subst e
      have : 0 ∈ rs.map List.length := by rw [← hl]; exact List.mem_map.mpr ⟨[], hr, rfl⟩
      obtain ⟨r, hr, e⟩ := List.mem_map.mp this
      exact h.2.2.1 r hr (List.length_eq_zero_iff.mp e)

theorem Lines.takes_congr : (ls : Lines) → (inside : Bool) → (rs rs' : List Reg) → rs'.map List.length = rs.map List.length → ls.Takes inside rs →
    ls.Takes inside rs'
  | .nil, _, _, _, _, _ => by simp [Lines.Takes]
  | .plain p gs ls, inside, rs, rs', hl, h => by
    simp only [Lines.Takes] at h ⊢
    exact ⟨h.1.congr hl, p.takes_congr _ _ _ (groups_lengths hl gs) h.2.1, ls.takes_congr _ _ _ hl h.2.2⟩
  | .control m p g gs ls, inside, rs, rs', hl, h => by
    simp only [Lines.Takes] at h ⊢
    exact ⟨h.1.congr hl, p.takes_congr _ _ _ (groups_lengths hl gs) h.2.1, ls.takes_congr _ _ _ hl h.2.2⟩
end

/-- the action of an inverted function needs the function to take the registers themselves, too -/
theorem takes_ranges {p : Prog} {inside : Bool} {rs : List Reg} (h : p.Takes inside (ranges 0 (rs.map List.length))) : p.Takes inside rs :=
  p.takes_congr _ _ _ (ranges_map_length _ _).symm h

mutual
theorem Prog.wave_same : (p : Prog) → (inside : Bool) → (rs : List Reg) → p.Takes inside rs → (∀ q ∈ rs.flatten, f (σ q) = false) →
    Same σ f (p.wave inside rs) (p.wave inside (rs.map (List.map σ)))
  | .call m, inside, rs, h, hf => (m.wave_same inside rs (by simpa [Prog.Takes] using h) hf).congr (fun x => by simp [Prog.wave]) fun x => by simp [Prog.wave]
  | .seq p q, inside, rs, h, hf => by
    simp only [Prog.Takes] at h
    exact ((p.wave_same inside rs h.1 hf).comp (q.wave_same inside rs h.2 hf)).congr (fun x => by simp only [Prog.wave]; rfl)
      fun x => by simp only [Prog.wave]; rfl
  | .cond p, inside, [], h, _ => by simp [Prog.Takes] at h
  | .cond p, inside, cr :: rs, h, hf => by
    simp only [Prog.Takes] at h
    refine ((p.wave_same true rs h.2 fun q hq => hf q (by rw [List.flatten_cons]; exact List.mem_append_right _ hq)).ite
      (P := fun x => ∀ c ∈ cr, x c = true) (P' := fun x => ∀ c ∈ cr.map σ, x c = true)
      (all_rename fun q hq => hf q (by rw [List.flatten_cons]; exact List.mem_append_left _ hq))).congr (fun x => ?_) fun x => ?_
    · simp only [Prog.wave]
      split_ifs <;> rfl
    · simp only [Prog.wave, List.map_cons]
      split_ifs <;> rfl
  | .prog ls, inside, rs, h, hf => by
    simp only [Prog.Takes] at h
    exact (ls.wave_same inside rs h.2 hf).congr (fun x => by simp only [Prog.wave]) fun x => by simp only [Prog.wave]
  | .sized F, inside, rs, h, hf => by
    simp only [Prog.Takes] at h
    refine ((F (rs.map List.length)).wave_same inside rs h hf).congr (fun x => by simp only [Prog.wave]) fun x => ?_
    simp only [Prog.wave]
    rw [lengths_rename]
  | .inv attr p, inside, rs, h, hf => by
    simp only [Prog.Takes] at h
    obtain ⟨rfl, -, -, h, -⟩ := h
    refine ((p.wave_same false rs (takes_ranges h) hf).dagger hf).congr (fun x => by simp only [Prog.wave]) fun x => ?_
    simp only [Prog.wave]
    rw [flatten_rename]

theorem Lines.wave_same : (ls : Lines) → (inside : Bool) → (rs : List Reg) → ls.Takes inside rs → (∀ q ∈ rs.flatten, f (σ q) = false) →
    Same σ f (ls.wave inside rs) (ls.wave inside (rs.map (List.map σ)))
  | .nil, _, rs, _, _ => Same.ket.congr (fun x => by simp only [Lines.wave]) fun x => by simp only [Lines.wave]
  | .plain p gs ls, inside, rs, h, hf => by
    simp only [Lines.Takes] at h
    refine ((p.wave_same inside _ h.2.1 fun q hq => hf q (groups_sub rs h.1 q hq)).comp (ls.wave_same inside rs h.2.2 hf)).congr
      (fun x => by simp only [Lines.wave]; rfl) fun x => ?_
    simp only [Lines.wave]
    rw [groups_rename rs h.1]
    rfl
  | .control m p g gs ls, inside, rs, h, hf => by
    simp only [Lines.Takes] at h
    have hs := groups_sub rs h.1
    rw [List.map_cons, List.flatten_cons] at hs
    have hg := groups_rename (σ := σ) rs h.1
    rw [List.map_cons, List.map_cons, List.map_cons] at hg
    obtain ⟨hg1, hg2⟩ := List.cons.inj hg
    refine (((p.wave_same true _ h.2.1 fun q hq => hf q (hs q (List.mem_append_right _ hq))).ite (P := Holds m (groupReg rs g))
      (P' := Holds m ((groupReg rs g).map σ)) (holds_rename fun q hq => hf q (hs q (List.mem_append_left _ hq)))).comp (ls.wave_same inside rs h.2.2 hf)).congr
      (fun x => by simp only [Lines.wave]; rfl) fun x => ?_
    simp only [Lines.wave, hg1, hg2]
    rfl
end

end

/-! ## at the positions of a new builder -/

/-- any qubits can be reached by renaming the first ones -/
theorem exists_perm (R : Reg) (hn : R.Nodup) : ∃ σ : Equiv.Perm ℕ, ∀ i (h : i < R.length), σ i = R[i] := by
  induction R using List.reverseRecOn with
  | nil => exact ⟨1, fun i h => by simp at h⟩
  | append_singleton R q ih =>
    obtain ⟨σ, hσ⟩ := ih (List.nodup_append.mp hn).1
    refine ⟨σ.trans (Equiv.swap (σ R.length) q), fun i h => ?_⟩
    have hq : ∀ i (h : i < R.length), R[i] ≠ q := fun i h e => (List.nodup_append.mp hn).2.2 _ (List.getElem_mem h) q (by simp) e
    rw [Equiv.trans_apply]
    by_cases hi : i < R.length
    · rw [List.getElem_append_left hi, ← hσ i hi, Equiv.swap_apply_of_ne_of_ne]
      · exact fun e => absurd (σ.injective e) (by omega)
      · rw [hσ i hi]; exact hq i hi
    · have : i = R.length := by simp at h; omega
      subst this
      simp

theorem ranges_rename (rs : List Reg) {σ : Equiv.Perm ℕ} (h : ∀ i (h : i < rs.flatten.length), σ i = rs.flatten[i]) :
    (ranges 0 (rs.map List.length)).map (List.map σ) = rs := by
  have := at_ranges rs []
  rw [List.length_nil, List.nil_append] at this
  conv_rhs => rw [← this]
  refine List.map_congr_left fun r hr => ?_
  unfold at'
  refine List.map_congr_left fun i hi => ?_
  have hm : i ∈ (ranges 0 (rs.map List.length)).flatten := List.mem_flatten.mpr ⟨r, hr, hi⟩
  rw [ranges_flatten, List.mem_range'_1, ← List.length_flatten] at hm
  rw [h i (by omega), List.getD_eq_getElem _ _ (by omega)]

/-- an action that is only renamed acts on any registers as on those of a new builder -/
theorem wave_move {W : List Reg → Asg → Wave} {rs : List Reg} (hn : rs.flatten.Nodup)
    (hs : ∀ (σ : Equiv.Perm ℕ) (f : Asg), (∀ q ∈ (ranges 0 (rs.map List.length)).flatten, f (σ q) = false) →
      Same σ f (W (ranges 0 (rs.map List.length))) (W ((ranges 0 (rs.map List.length)).map (List.map σ))))
    (hk : ∀ z ∈ Low rs.flatten.length, On (Low rs.flatten.length) (W (ranges 0 (rs.map List.length)) z)) (x : Asg) :
    W rs x = moveW rs.flatten (W (ranges 0 (rs.map List.length))) x := by
  obtain ⟨σ, hσ⟩ := exists_perm rs.flatten hn
  have hfl : (ranges 0 (rs.map List.length)).flatten = List.range rs.flatten.length := by
    rw [ranges_flatten, List.range_eq_range', List.length_flatten]
  have hp : ∀ i (h : i < rs.flatten.length), pull rs.flatten x i = x (σ i) := fun i h => by
    unfold pull
    rw [if_pos h, hσ i h, List.getD_eq_getElem _ _ h]
  let f : Asg := fun q => xor (x q) (pull rs.flatten x (σ.symm q))
  have hf : ∀ i (h : i < rs.flatten.length), f (σ i) = false := fun i h => by
    show xor (x (σ i)) (pull rs.flatten x (σ.symm (σ i))) = false
    rw [Equiv.symm_apply_apply, hp i h, Bool.xor_self]
  have e := hs σ f (fun q hq => by rw [hfl, List.mem_range] at hq; exact hf q hq) (pull rs.flatten x)
  rw [ranges_rename rs hσ] at e
  have e1 : mv σ f (pull rs.flatten x) = x := by
    funext q
    show xor (pull rs.flatten x (σ.symm q)) (xor (x q) (pull rs.flatten x (σ.symm q))) = x q
    cases x q <;> cases pull rs.flatten x (σ.symm q) <;> rfl
  rw [e1] at e
  rw [e, moveW_eq]
  refine (hk _ (pull_low _ _)).agree fun y hy => ?_
  rw [mvW_ket, embW_ket]
  congr 1
  refine mv_ext (σ := σ) fun i => ?_
  rw [mv_at]
  by_cases hi : i < rs.flatten.length
  · have := emb_getD rs.flatten hn x y i hi
    rw [List.getD_eq_getElem _ _ hi, ← hσ i hi] at this
    rw [hf i hi, this, Bool.xor_false]
  · have hnm : σ i ∉ rs.flatten := fun hm => by
      obtain ⟨j, hj, e⟩ := List.getElem_of_mem hm
      rw [← hσ j hj] at e
      have := σ.injective e
      omega
    rw [emb_not_mem _ _ _ _ hnm]
    show xor (y i) (xor (x (σ i)) (pull rs.flatten x (σ.symm (σ i)))) = x (σ i)
    rw [Equiv.symm_apply_apply, hy i (by omega), pull_low _ _ i (by omega), Bool.false_xor, Bool.xor_false]

end Verif
