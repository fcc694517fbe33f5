import Verif.Spec.Sub
import Verif.Proofs.Does

/-! # Renaming the qubits of a circuit -/

namespace Verif
open Complex Finset Classical

variable {ang : Rot → ℝ}

/-- move a state on the qubits `0, 1, …` to the qubits `R` of `x` -/
noncomputable def embW (R : Reg) (x : Asg) : Wave →ₗ[ℂ] Wave := Finsupp.lmapDomain ℂ ℂ (emb R x)

@[simp] theorem embW_ket (R : Reg) (x y : Asg) : embW R x (ket y) = ket (emb R x y) := by
  unfold embW ket
  rw [Finsupp.lmapDomain_apply, Finsupp.mapDomain_single]

theorem moveW_eq (R : Reg) (V : Asg → Wave) (x : Asg) : moveW R V x = embW R x (V (pull R x)) := rfl

theorem emb_getD (R : Reg) (hn : R.Nodup) (x y : Asg) (i : ℕ) (hi : i < R.length) : emb R x y (R.getD i 0) = y i := by
  unfold emb
  rw [List.getD_eq_getElem _ _ hi, if_pos (List.getElem_mem hi), hn.idxOf_getElem]

theorem emb_not_mem (R : Reg) (x y : Asg) (q : ℕ) (h : q ∉ R) : emb R x y q = x q := by
  unfold emb; rw [if_neg h]

theorem emb_pull (R : Reg) (x : Asg) : emb R x (pull R x) = x := by
  funext q
  unfold emb pull
  by_cases h : q ∈ R
  · have := List.idxOf_lt_length_of_mem h
    rw [if_pos h, if_pos this, List.getD_eq_getElem _ _ this, List.getElem_idxOf]
  · rw [if_neg h]

theorem pull_emb (R : Reg) (hn : R.Nodup) (x y : Asg) : pull R (emb R x y) = fun i => if i < R.length then y i else false := by
  funext i
  unfold pull
  by_cases h : i < R.length
  · rw [if_pos h, if_pos h, emb_getD R hn x y i h]
  · rw [if_neg h, if_neg h]

theorem emb_emb (R : Reg) (x y z : Asg) : emb R (emb R x y) z = emb R x z := by
  funext q
  unfold emb
  by_cases h : q ∈ R <;> simp [h]

theorem at_length (R : Reg) (is : List ℕ) : (at' R is).length = is.length := by simp [at']

theorem at_nodup (R : Reg) (hn : R.Nodup) (is : List ℕ) (hi : is.Nodup) (hl : ∀ i ∈ is, i < R.length) : (at' R is).Nodup := by
  unfold at'
  apply List.Nodup.map_on _ hi
  intro i h1 j h2 e
  rw [List.getD_eq_getElem _ _ (hl i h1), List.getD_eq_getElem _ _ (hl j h2)] at e
  exact (hn.getElem_inj_iff).mp e

theorem at_mem (R : Reg) (is : List ℕ) (hl : ∀ i ∈ is, i < R.length) : ∀ q ∈ at' R is, q ∈ R := by
  intro q hq
  unfold at' at hq
  rw [List.mem_map] at hq
  obtain ⟨i, hi, rfl⟩ := hq
  rw [List.getD_eq_getElem _ _ (hl i hi)]
  exact List.getElem_mem _

theorem readQ_emb (R : Reg) (hn : R.Nodup) (is : List ℕ) (hl : ∀ i ∈ is, i < R.length) (x y : Asg) :
    readQ (at' R is) (emb R x y) = readQ is y := by
  unfold readQ at'
  rw [List.foldl_map]
  have : ∀ (is : List ℕ) (a : ℕ), (∀ i ∈ is, i < R.length) →
      is.foldl (fun a i => 2 * a + (emb R x y (R.getD i 0)).toNat) a = is.foldl (fun a i => 2 * a + (y i).toNat) a := by
    intro is
    induction is with
    | nil => intro a _; rfl
    | cons i is ih =>
      intro a h
      rw [List.foldl_cons, List.foldl_cons, emb_getD R hn x y i (h i (by simp)), ih _ fun j hj => h j (by simp [hj])]
  exact this is 0 hl

theorem writeQ_emb (R : Reg) (hn : R.Nodup) (is : List ℕ) (hi : is.Nodup) (hl : ∀ i ∈ is, i < R.length) (c : ℕ) (x y : Asg) :
    writeQ (at' R is) c (emb R x y) = emb R x (writeQ is c y) := by
  funext q
  by_cases hq : q ∈ R
  · obtain ⟨k, hk, rfl⟩ := List.mem_iff_getElem.mp hq
    have e1 : emb R x (writeQ is c y) R[k] = writeQ is c y k := by
      have := emb_getD R hn x (writeQ is c y) k hk
      rwa [List.getD_eq_getElem _ _ hk] at this
    have e2 : emb R x y R[k] = y k := by
      have := emb_getD R hn x y k hk
      rwa [List.getD_eq_getElem _ _ hk] at this
    rw [e1]
    by_cases hm : k ∈ is
    · obtain ⟨j, hj, rfl⟩ := List.mem_iff_getElem.mp hm
      rw [writeQ_mem is hi c y j hj]
      have hj' : j < (at' R is).length := by rw [at_length]; exact hj
      have : (at' R is)[j] = R[is[j]] := by simp [at', hk]
      rw [← this, writeQ_mem _ (at_nodup R hn is hi hl) c _ j hj', at_length]
    · rw [writeQ_not_mem is c y k hm, writeQ_not_mem, e2]
      unfold at'
      rw [List.mem_map]
      rintro ⟨i, hi2, e⟩
      rw [List.getD_eq_getElem _ _ (hl i hi2)] at e
      exact hm ((hn.getElem_inj_iff).mp e ▸ hi2)
  · rw [emb_not_mem R _ _ q hq, writeQ_not_mem, emb_not_mem R _ _ q hq]
    exact fun h => hq (at_mem R is hl q h)

theorem gate_emb (R : Reg) (hn : R.Nodup) (is : List ℕ) (hi : is.Nodup) (hl : ∀ i ∈ is, i < R.length) (m : ℕ → ℕ → ℂ)
    (x : Asg) (φ : Wave) : gateW (at' R is) m (embW R x φ) = embW R x (gateW is m φ) := by
  have : gateW (at' R is) m ∘ₗ embW R x = embW R x ∘ₗ gateW is m := by
    refine wave_ext fun y => ?_
    rw [LinearMap.comp_apply, LinearMap.comp_apply, embW_ket, gateW_ket, gateW_ket, map_sum, at_length, readQ_emb R hn is hl]
    refine sum_congr rfl fun r _ => ?_
    rw [map_smul, embW_ket, writeQ_emb R hn is hi hl]
  exact LinearMap.congr_fun this φ

/-- running the renamed circuit -/
theorem run_rename (R : Reg) (hn : R.Nodup) (sc : Pipeline) (h : ∀ e ∈ sc, e.1.Nodup ∧ ∀ i ∈ e.1, i < R.length) (x : Asg)
    (φ : Wave) : runW ang (rename R sc) (embW R x φ) = embW R x (runW ang sc φ) := by
  induction sc generalizing φ with
  | nil => rfl
  | cons e sc ih =>
    have he := h e (by simp)
    show runW ang (rename R sc) (entryW ang (at' R e.1, e.2) (embW R x φ)) = _
    have : entryW ang (at' R e.1, e.2) (embW R x φ) = embW R x (entryW ang e φ) := by
      unfold entryW
      simp only
      split
      · rw [at_length, gate_emb R hn e.1 he.1 he.2]
      · rfl
    rw [this, ih fun e' he' => h e' (by simp [he'])]
    rfl

theorem run_rename_ket (R : Reg) (hn : R.Nodup) (sc : Pipeline) (h : ∀ e ∈ sc, e.1.Nodup ∧ ∀ i ∈ e.1, i < R.length)
    (x : Asg) : runW ang (rename R sc) (ket x) = moveW R (fun y => runW ang sc (ket y)) x := by
  conv_lhs => rw [← emb_pull R x, ← embW_ket]
  rw [run_rename R hn sc h]
  rfl

/-- with the temporaries `t` at 0 before and after, the action takes place on `r` -/
theorem move_append (r t : Reg) (V : Asg → Wave) (x : Asg) (ht : ∀ q ∈ t, x q = false)
    (hV : On {y | ∀ i, r.length ≤ i → y i = false} (V (pull r x))) : moveW (r ++ t) V x = moveW r V x := by
  have hp : pull (r ++ t) x = pull r x := by
    funext i
    unfold pull
    by_cases h1 : i < r.length
    · rw [if_pos h1, if_pos (by simp; omega), List.getD_append _ _ _ _ h1]
    · rw [if_neg h1]
      by_cases h2 : i < (r ++ t).length
      · rw [if_pos h2, List.getD_append_right _ _ _ _ (by omega), List.getD_eq_getElem _ _ (by simp at h2; omega)]
        exact ht _ (List.getElem_mem _)
      · rw [if_neg h2]
  rw [moveW_eq, moveW_eq, hp]
  refine hV.agree fun y hy => ?_
  rw [embW_ket, embW_ket]
  congr 1
  funext q
  unfold emb
  by_cases h1 : q ∈ r
  · rw [if_pos (by simp [h1]), if_pos h1, List.idxOf_append_of_mem h1]
  · rw [if_neg h1]
    by_cases h2 : q ∈ t
    · rw [if_pos (by simp [h2]), List.idxOf_append_of_notMem h1, ht q h2]
      exact hy _ (by omega)
    · rw [if_neg (by simp [h1, h2])]

/-- moving on the qubits `R` and outside -/
theorem move_on (R : Reg) (V : Asg → Wave) (x : Asg) : On {y | ∀ q, q ∉ R → y q = x q} (moveW R V x) := by
  rw [moveW_eq]
  have : On Set.univ (V (pull R x)) := on_iff.mpr fun _ _ => trivial
  refine this.map _ fun y _ => ?_
  rw [embW_ket]
  exact On.ket fun q hq => emb_not_mem R x y q hq

/-- one action after the other -/
theorem lift_move (R : Reg) (hn : R.Nodup) (V W : Asg → Wave) (x : Asg)
    (hV : On {y | ∀ i, R.length ≤ i → y i = false} (V (pull R x))) :
    lift (moveW R W) (moveW R V x) = moveW R (fun z => lift W (V z)) x := by
  rw [moveW_eq, moveW_eq]
  have : (lift (moveW R W) ∘ₗ embW R x) (V (pull R x)) = (embW R x ∘ₗ lift W) (V (pull R x)) := by
    refine hV.agree fun y hy => ?_
    rw [LinearMap.comp_apply, LinearMap.comp_apply, embW_ket, lift_ket, lift_ket, moveW_eq, pull_emb R hn]
    have e1 : (fun i => if i < R.length then y i else false) = y := by
      funext i
      by_cases h : i < R.length
      · rw [if_pos h]
      · rw [if_neg h, hy i (by omega)]
    have e2 : embW R (emb R x y) = embW R x := by
      refine wave_ext fun z => ?_
      rw [embW_ket, embW_ket, emb_emb]
    rw [e1, e2]
  exact this

theorem move_ket (R : Reg) (x : Asg) : moveW R ket x = ket x := by
  rw [moveW_eq, embW_ket, emb_pull]

theorem move_congr (R : Reg) (V W : Asg → Wave) (h : ∀ z, (∀ i, R.length ≤ i → z i = false) → V z = W z) (x : Asg) :
    moveW R V x = moveW R W x := by
  rw [moveW_eq, moveW_eq, h]
  intro i hi
  unfold pull
  rw [if_neg (by omega)]

end Verif
