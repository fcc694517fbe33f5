import Verif.Spec.Clone
import Verif.Proofs.Defer

/-! # No program clones -/

namespace Verif
open Complex Finset

/-- the gate on the qubit, or nothing -/
noncomputable def optW (q : ℕ) : Option Named → Wave →ₗ[ℂ] Wave
  | none => LinearMap.id
  | some g => gateW [q] g.mat

theorem first_valid {rs : List Reg} {k : ℕ} (hk : k < rs.length) (hr : rs.getD k [] ≠ []) : ValidGroups rs [[(k, some [0])]] := by
  have hl : 0 < (rs.getD k []).length := List.length_pos_iff.mpr hr
  refine ⟨by simp [groupPos, selPos], by simp [groupPos, selPos], by simpa using hk, ?_⟩
  intro p hp
  have : p = (k, 0) := by simpa [groupPos, selPos] using hp
  subst this
  exact ⟨hk, hl⟩

theorem first_reg (rs : List Reg) (k : ℕ) : groupReg rs [(k, some [0])] = [(rs.getD k []).getD 0 0] := rfl

theorem clonePrep_takes {rs : List Reg} {k : ℕ} (hk : k < rs.length) (hall : rs ≠ [] ∧ ∀ r ∈ rs, r ≠ []) (g : Option Named) : (clonePrep k g).Takes false rs := by
  have hr : rs.getD k [] ≠ [] := by
    rw [List.getD_eq_getElem _ _ hk]
    exact hall.2 _ (List.getElem_mem _)
  cases g with
  | none =>
    simp only [clonePrep, Prog.Takes, Lines.Takes]
    exact ⟨hall.2, trivial⟩
  | some g =>
    simp only [clonePrep, Prog.Takes, Lines.Takes, List.map_cons, List.map_nil, first_reg, Method.Takes]
    refine ⟨hall.2, first_valid hk hr, ?_, trivial⟩
    simp

theorem clonePrep_lift (rs : List Reg) (k : ℕ) (g : Option Named) : lift ((clonePrep k g).wave false rs) = optW ((rs.getD k []).getD 0 0) g := by
  refine wave_ext fun x => ?_
  rw [lift_ket]
  cases g with
  | none => simp [clonePrep, Prog.wave, Lines.wave, optW]
  | some g =>
    simp only [clonePrep, Prog.wave, Lines.wave, List.map_cons, List.map_nil, first_reg, Method.wave, optW, eachW]
    rw [lift_eq, lift_ket_id]
    rfl

theorem gate_at (q : ℕ) (m : ℕ → ℕ → ℂ) (ψ : Wave) (y : Asg) :
    gateW [q] m ψ y = m (y q).toNat 0 * ψ (setQ q false y) + m (y q).toNat 1 * ψ (setQ q true y) := by
  rw [gateW_apply [q] (by simp)]
  simp [Finset.sum_range_succ, writeQ_single, readQ]

theorem x_at (q : ℕ) (ψ : Wave) (y : Asg) : gateW [q] (Named.mat .x) ψ y = ψ (setQ q (!y q) y) := by
  rw [gate_at]
  cases h : y q <;> simp [Named.mat, mat2]

theorem h_at (q : ℕ) (ψ : Wave) (y : Asg) :
    gateW [q] (Named.mat .h) ψ y = (1 / (Real.sqrt 2 : ℂ)) * (ψ (setQ q false y) + (if y q then -1 else 1) * ψ (setQ q true y)) := by
  rw [gate_at]
  cases h : y q <;> simp [Named.mat, mat2] <;> ring

theorem had_zero_ket {a : ℕ} {x : Asg} (hx : x a = false) : gateW [a] (Named.mat .h) (ket x) = (1 / (Real.sqrt 2 : ℂ)) • (ket x + gateW [a] (Named.mat .x) (ket x)) := by
  ext y
  rw [h_at, Finsupp.smul_apply, Finsupp.add_apply, x_at, smul_eq_mul]
  congr 1
  have h0 : ket x (setQ a true y) = 0 := by
    refine Finsupp.single_eq_of_ne fun h => ?_
    have h := h.symm
    have := congrFun h a
    rw [hx, setQ_eq] at this
    cases this
  cases h : y a
  · rw [setQ_self a y false h, Bool.not_false, h0]
    simp
  · have := h0
    rw [setQ_self a y true h] at this
    rw [setQ_self a y true h, this, Bool.not_true]
    simp

theorem set_comm {a b : ℕ} (hab : a ≠ b) (u v : Bool) (y : Asg) : setQ b v (setQ a u y) = setQ a u (setQ b v y) := Function.update_comm hab _ _ _

theorem set_set (a : ℕ) (u v : Bool) (y : Asg) : setQ a u (setQ a v y) = setQ a u y := Function.update_idem _ _ _

theorem hh_at {a b : ℕ} (hab : a ≠ b) (φ : Wave) (y : Asg) (h1 : φ (setQ a false (setQ b true y)) = 0) (h2 : φ (setQ a true (setQ b false y)) = 0) :
    gateW [b] (Named.mat .h) (gateW [a] (Named.mat .h) φ) (setQ a true (setQ b true y)) = gateW [b] (Named.mat .h) (gateW [a] (Named.mat .h) φ) (setQ a false (setQ b false y)) := by
  have eb : ∀ u v, setQ a u (setQ b v y) b = v := fun u v => by rw [setQ_ne hab.symm, setQ_eq]
  have ea : ∀ u v, setQ a u (setQ b v y) a = u := fun u v => setQ_eq _ _ _
  simp only [h_at, set_comm hab, set_set, eb, ea, h1, h2]
  simp

/-- linear maps do not clone: what makes a copy of a qubit `a` in the states 0 and 1 makes no copy in the state H makes -/
theorem no_clone {A : Wave →ₗ[ℂ] Wave} {a b : ℕ} (hab : a ≠ b) {x : Asg} (hx : x a = false)
    (h1 : On {y | y a = false ∧ y b = false} (A (ket x)))
    (h2 : On {y | y a = false ∧ y b = false} (gateW [b] (Named.mat .x) (gateW [a] (Named.mat .x) (A (gateW [a] (Named.mat .x) (ket x))))))
    (h3 : On {y | y a = false ∧ y b = false} (gateW [b] (Named.mat .h) (gateW [a] (Named.mat .h) (A (gateW [a] (Named.mat .h) (ket x)))))) :
    gateW [b] (Named.mat .h) (gateW [a] (Named.mat .h) (A (gateW [a] (Named.mat .h) (ket x)))) = 0 := by
  rw [had_zero_ket hx, map_smul, map_add] at h3 ⊢
  generalize A (ket x) = φ at h1 h3 ⊢
  generalize A (gateW [a] (Named.mat .x) (ket x)) = χ at h2 h3 ⊢
  rw [on_iff] at h1 h2 h3
  simp only [Finsupp.mem_support_iff, Set.mem_setOf_eq] at h1 h2 h3
  have hχ : ∀ y, y a = false ∨ y b = false → χ y = 0 := by
    intro y hy
    by_contra hc
    have h := h2 (setQ a (!y a) (setQ b (!y b) y)) (by
      have e : setQ a (y a) (setQ b (y b) y) = y := by rw [setQ_self b y _ rfl, setQ_self a y _ rfl]
      rw [x_at, x_at]
      simp only [set_comm hab, set_set, setQ_eq, setQ_ne hab.symm, Bool.not_not]
      rwa [e])
    rw [setQ_eq, setQ_ne hab.symm, setQ_eq] at h
    simp only [Bool.not_eq_false'] at h
    rcases hy with hy | hy
    · rw [hy] at h; exact absurd h.1 (by simp)
    · rw [hy] at h; exact absurd h.2 (by simp)
  have hφ : ∀ y, y a = true ∨ y b = true → φ y = 0 := by
    intro y hy
    by_contra hc
    have h := h1 y hc
    rcases hy with hy | hy
    · rw [hy] at h; exact absurd h.1 (by simp)
    · rw [hy] at h; exact absurd h.2 (by simp)
  ext y
  by_contra hc
  have hy := h3 y hc
  have e : setQ a false (setQ b false y) = y := by rw [setQ_self b y _ hy.2, setQ_self a y _ hy.1]
  have hz : ∀ u v, u ≠ v → ((1 / (Real.sqrt 2 : ℂ)) • (φ + χ)) (setQ a u (setQ b v y)) = 0 := by
    intro u v huv
    have eb : setQ a u (setQ b v y) b = v := by rw [setQ_ne hab.symm, setQ_eq]
    have ea : setQ a u (setQ b v y) a = u := setQ_eq _ _ _
    rw [Finsupp.smul_apply, Finsupp.add_apply, hφ _ (by rw [ea, eb]; cases u <;> cases v <;> simp_all), hχ _ (by rw [ea, eb]; cases u <;> cases v <;> simp_all), add_zero, smul_zero]
  have h := hh_at hab _ y (hz false true (by simp)) (hz true false (by simp))
  rw [e] at h
  refine hc (h.symm.trans ?_)
  by_contra hd
  have := (h3 _ hd).1
  rw [setQ_eq] at this
  cases this

/-- an outcome that has the whole probability is certain -/
theorem on_of_norm {r : Reg} {m : ℕ} {ψ : Wave} (h : normW ψ ≤ normW (projW r m ψ)) : On {y | valQ r y = m} ψ := on_iff.mpr fun y hy => by
  by_contra hc
  have hc' : valQ r y ≠ m := hc
  have hy' := Finsupp.mem_support_iff.mp hy
  have h0 : 0 < normW (projW r (valQ r y) ψ) := by
    refine lt_of_le_of_ne (normW_nonneg _) fun h => ?_
    have := DFunLike.congr_fun (normW_eq_zero h.symm) y
    rw [projW_apply, if_pos rfl] at this
    exact hy' this
  have hs := normW_proj_sum r ψ
  have hv : valQ r y ∈ range (2 ^ r.length) := Finset.mem_range.mpr (valQ_lt r y)
  rw [← Finset.add_sum_erase _ _ hv] at hs
  by_cases hm : m < 2 ^ r.length
  · have hm' : m ∈ (range (2 ^ r.length)).erase (valQ r y) := Finset.mem_erase.mpr ⟨hc'.symm, Finset.mem_range.mpr hm⟩
    have := Finset.single_le_sum (f := fun m => normW (projW r m ψ)) (fun i _ => normW_nonneg _) hm'
    linarith
  · rw [projW_big _ _ (by omega), normW_zero] at h
    have := Finset.sum_nonneg (s := (range (2 ^ r.length)).erase (valQ r y)) (f := fun m => normW (projW r m ψ)) fun i _ => normW_nonneg _
    linarith

theorem bit_of_zero {r : Reg} {y : Asg} (h : valQ r y = 0) {q : ℕ} (hq : q ∈ r) : y q = false := by
  induction r with
  | nil => cases hq
  | cons p r ih =>
    simp only [valQ] at h
    rcases List.mem_cons.mp hq with rfl | hq
    · cases hy : y q
      · rfl
      · rw [hy, Bool.toNat_true] at h
        omega
    · exact ih (by omega) hq

theorem proj_le (r : Reg) (m : ℕ) (ψ : Wave) : normW (projW r m ψ) ≤ normW ψ := by
  by_cases hm : m < 2 ^ r.length
  · have := Finset.single_le_sum (f := fun m => normW (projW r m ψ)) (fun i _ => normW_nonneg _) (Finset.mem_range.mpr hm)
    rwa [normW_proj_sum] at this
  · rw [projW_big _ _ (by omega), normW_zero]
    exact normW_nonneg _

theorem on_two {r r' : Reg} {ψ : Wave} (h : normW ψ ≤ normW (projW r' 0 (projW r 0 ψ))) : On {y | valQ r y = 0 ∧ valQ r' y = 0} ψ := by
  have h1 : On {y | valQ r y = 0} ψ := on_of_norm (h.trans (proj_le _ _ _))
  rw [projW_on h1] at h
  have h2 : On {y | valQ r' y = 0} ψ := on_of_norm h
  exact on_iff.mpr fun y hy => ⟨on_iff.mp h1 y hy, on_iff.mp h2 y hy⟩

end Verif
