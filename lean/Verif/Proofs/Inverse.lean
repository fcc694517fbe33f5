import Verif.Spec.Sub
import Verif.Proofs.Does
import Verif.Proofs.Calc2
import Verif.Proofs.Gates2
import Mathlib.LinearAlgebra.Matrix.NonsingularInverse

/-!
# Inverse circuits
-/

namespace Verif
open Complex Finset Classical

variable {ang : Rot → ℝ}

theorem writeQ_writeQ (idx : List ℕ) (a b : ℕ) (x : Asg) : writeQ idx a (writeQ idx b x) = writeQ idx a x := by
  funext q
  unfold writeQ
  by_cases h : q ∈ idx <;> simp [h]

/-- gates on the same qubits one after the other -/
theorem gateW_comp (idx : List ℕ) (hn : idx.Nodup) (A B : ℕ → ℕ → ℂ) (ψ : Wave) :
    gateW idx A (gateW idx B ψ) = gateW idx (fun i j => ∑ k ∈ range (2 ^ idx.length), A i k * B k j) ψ := by
  have : gateW idx A ∘ₗ gateW idx B = gateW idx (fun i j => ∑ k ∈ range (2 ^ idx.length), A i k * B k j) := by
    refine wave_ext fun x => ?_
    rw [LinearMap.comp_apply, gateW_ket, gateW_ket, map_sum]
    simp only [map_smul]
    have h1 : ∀ r ∈ range (2 ^ idx.length), B r (readQ idx x) • gateW idx A (ket (writeQ idx r x)) =
        ∑ s ∈ range (2 ^ idx.length), (A s r * B r (readQ idx x)) • ket (writeQ idx s x) := by
      intro r hr
      rw [gateW_ket, smul_sum]
      refine sum_congr rfl fun s _ => ?_
      rw [readQ_writeQ idx hn r (mem_range.mp hr), writeQ_writeQ, smul_smul, mul_comm]
    rw [sum_congr rfl h1, sum_comm]
    refine sum_congr rfl fun s _ => ?_
    rw [sum_smul]
  exact LinearMap.congr_fun this ψ

theorem gateW_congr (idx : List ℕ) (A B : ℕ → ℕ → ℂ) (h : ∀ i j, i < 2 ^ idx.length → j < 2 ^ idx.length → A i j = B i j) :
    gateW idx A = gateW idx B := by
  refine wave_ext fun x => ?_
  rw [gateW_ket, gateW_ket]
  refine sum_congr rfl fun s hs => ?_
  rw [h s _ (mem_range.mp hs) (readQ_lt idx x)]

theorem gateW_one (idx : List ℕ) (ψ : Wave) : gateW idx (fun i j => if i = j then 1 else 0) ψ = ψ := by
  have : gateW idx (fun i j => if i = j then 1 else 0) = LinearMap.id := by
    refine wave_ext fun x => ?_
    rw [gateW_ket, sum_eq_single (readQ idx x)]
    · rw [if_pos rfl, one_smul, writeQ_readQ]; rfl
    · intro b _ hb; rw [if_neg hb, zero_smul]
    · intro h; exact absurd (mem_range.mpr (readQ_lt idx x)) h
  rw [this]; rfl

/-- the conjugate transpose -/
noncomputable def dag (m : ℕ → ℕ → ℂ) : ℕ → ℕ → ℂ := fun i j => star (m j i)

theorem gateW_dag (idx : List ℕ) (hn : idx.Nodup) (m : ℕ → ℕ → ℂ) (h : IsUnitary idx.length m) (ψ : Wave) :
    gateW idx (dag m) (gateW idx m ψ) = ψ := by
  rw [gateW_comp idx hn, gateW_congr idx _ (fun i j => if i = j then 1 else 0), gateW_one]
  intro i j hi hj
  exact h i j hi hj

/-- the rows of a unitary matrix are orthonormal, too -/
theorem unitary_rows (k : ℕ) (m : ℕ → ℕ → ℂ) (h : IsUnitary k m) (i j : ℕ) (hi : i < 2 ^ k) (hj : j < 2 ^ k) :
    ∑ l ∈ range (2 ^ k), m i l * dag m l j = if i = j then 1 else 0 := by
  set N := 2 ^ k with hN
  let P : Matrix (Fin N) (Fin N) ℂ := fun a b => dag m a b
  let Q : Matrix (Fin N) (Fin N) ℂ := fun a b => m a b
  have h1 : P * Q = 1 := by
    ext a b
    rw [Matrix.mul_apply, Matrix.one_apply]
    have := h a b a.2 b.2
    rw [Finset.sum_range] at this
    refine Eq.trans ?_ (this.trans ?_)
    · rfl
    · simp [Fin.ext_iff]
  have h2 : Q * P = 1 := mul_eq_one_comm.mp h1
  have h3 := congrFun (congrFun h2 ⟨i, hi⟩) ⟨j, hj⟩
  rw [Matrix.mul_apply, Matrix.one_apply] at h3
  rw [Finset.sum_range]
  refine Eq.trans ?_ (h3.trans ?_)
  · rfl
  · simp

theorem isUnitary_dag (k : ℕ) (m : ℕ → ℕ → ℂ) (h : IsUnitary k m) : IsUnitary k (dag m) := by
  intro r c hr hc
  rw [← unitary_rows k m h r c hr hc]
  refine sum_congr rfl fun s _ => ?_
  unfold dag
  rw [star_star]

theorem isUnitary_congr (k : ℕ) (A B : ℕ → ℕ → ℂ) (hAB : ∀ i j, i < 2 ^ k → j < 2 ^ k → A i j = B i j)
    (h : IsUnitary k A) : IsUnitary k B := by
  intro r c hr hc
  rw [← h r c hr hc]
  refine sum_congr rfl fun s hs => ?_
  have hs := mem_range.mp hs
  rw [hAB s r hs hr, hAB s c hs hc]

theorem gateW_dag' (idx : List ℕ) (hn : idx.Nodup) (m : ℕ → ℕ → ℂ) (h : IsUnitary idx.length m) (ψ : Wave) :
    gateW idx m (gateW idx (dag m) ψ) = ψ := by
  rw [gateW_comp idx hn, gateW_congr idx _ (fun i j => if i = j then 1 else 0), gateW_one]
  intro i j hi hj
  exact unitary_rows idx.length m h i j hi hj

theorem dag_mat2 (a b c d : ℂ) : dag (mat2 a b c d) = mat2 (star a) (star c) (star b) (star d) := by
  funext i j
  unfold dag mat2
  split <;> split <;> rfl

/-- the data of the conjugate transpose -/
theorem daggerData_eq (k : ℕ) (data : List ℂ) (hl : data.length = 4 ^ k) :
    ∃ d, daggerData k data = some d ∧ d.length = 4 ^ k ∧
      ∀ i j, i < 2 ^ k → j < 2 ^ k → (d[i * 2 ^ k + j]?).getD 0 = star ((data[j * 2 ^ k + i]?).getD 0) := by
  have h4 : 2 ^ k * 2 ^ k = 4 ^ k := by rw [← mul_pow]; norm_num
  have hidx : ∀ x < 4 ^ k, (x % 2 ^ k) * 2 ^ k + x / 2 ^ k < 4 ^ k := by
    intro x hx
    rw [← h4] at hx ⊢
    have h1 : x % 2 ^ k < 2 ^ k := Nat.mod_lt _ (by positivity)
    have h2 : x / 2 ^ k < 2 ^ k := Nat.div_lt_of_lt_mul hx
    have h3 := Nat.mul_le_mul_right (2 ^ k) (Nat.succ_le_of_lt h1)
    rw [Nat.succ_mul] at h3
    omega
  refine ⟨(List.range (4 ^ k)).map fun x => star ((data[(x % 2 ^ k) * 2 ^ k + x / 2 ^ k]?).getD 0), ?_, by simp, ?_⟩
  · unfold daggerData
    simp only [Nat.one_shiftLeft, hl, h4, le_refl, if_true]
    have : ∀ l : List ℕ, (∀ x ∈ l, x < 4 ^ k) → (l.mapM fun x => if x < 4 ^ k then do
        let d ← data[(x % 2 ^ k) * 2 ^ k + x / 2 ^ k]?
        some (star d) else some 0) = some (l.map fun x => star ((data[(x % 2 ^ k) * 2 ^ k + x / 2 ^ k]?).getD 0)) := by
      intro l
      induction l with
      | nil => intro _; rfl
      | cons x l ih =>
        intro hx
        have h1 := hx x (by simp)
        rw [List.mapM_cons, ih fun y hy => hx y (by simp [hy]), if_pos h1,
          List.map_cons, List.getElem?_eq_getElem (by rw [hl]; exact hidx x h1)]
        rfl
    exact this _ fun x hx => List.mem_range.mp hx
  · intro i j hi hj
    have h1 : i * 2 ^ k + j < 4 ^ k := by 
      have h3 := Nat.mul_le_mul_right (2 ^ k) (Nat.succ_le_of_lt hi)
      rw [Nat.succ_mul] at h3
      rw [← h4]; omega
    rw [List.getElem?_map, List.getElem?_range h1]
    simp only [Option.map_some, Option.getD_some]
    rw [show (i * 2 ^ k + j) % 2 ^ k = j by rw [add_comm, Nat.add_mul_mod_self_right, Nat.mod_eq_of_lt hj], show (i * 2 ^ k + j) / 2 ^ k = i by
      rw [mul_comm, Nat.mul_add_div (by positivity), Nat.div_eq_of_lt hj, add_zero]]

theorem runW_singles (ang : Rot → ℝ) (idx : List ℕ) (n : ℕ) (us : List UObj) :
    runW ang ((us.map fun u => (⟨n, .unitary u⟩ : CObj)).map fun co => (idx, co)) =
      us.foldl (fun W u => gateW idx (uMat ang idx.length u) ∘ₗ W) LinearMap.id := by
  have key : ∀ (us : List UObj) (W : Wave →ₗ[ℂ] Wave),
      runW ang ((us.map fun u => (⟨n, .unitary u⟩ : CObj)).map fun co => (idx, co)) ∘ₗ W =
        us.foldl (fun W u => gateW idx (uMat ang idx.length u) ∘ₗ W) W := by
    intro us
    induction us with
    | nil => intro W; rfl
    | cons u us ih =>
      intro W
      rw [List.foldl_cons, ← ih]
      rfl
  have := key us LinearMap.id
  rwa [LinearMap.comp_id] at this

/-- the objects that undo the object `co` -/
theorem invertObject_ok (hang : ∀ ρ, ang (Rot.neg ρ) = -ang ρ) (k : ℕ) (u : UObj) (hs : u.Shape k) :
    ∃ us, invertObject ⟨k, .unitary u⟩ = .ok (us.map fun u => ⟨k, .unitary u⟩) ∧ us ≠ [] ∧ (∀ v ∈ us, v.Shape k) ∧
      ((∀ ρ, u ≠ .GlobalPhase ρ) → ∀ v ∈ us, ∀ ρ, v ≠ .GlobalPhase ρ) ∧
      (IsUnitary k (uMat ang k u) → ∀ v ∈ us, IsUnitary k (uMat ang k v)) ∧
      (∀ idx : List ℕ, idx.length = k → idx.Nodup →
        runW ang ((us.map fun u => (⟨k, .unitary u⟩ : CObj)).map fun co => (idx, co)) = gateW idx (dag (uMat ang k u))) ∧
      ∀ idx : List ℕ, phases ang [(idx, ⟨k, .unitary u⟩)] *
        phases ang ((us.map fun u => (⟨k, .unitary u⟩ : CObj)).map fun co => (idx, co)) = 1 := by
  have one : ∀ (u : UObj), u.Shape k → (∀ ρ, u ≠ .GlobalPhase ρ) →
      invertObject ⟨k, .unitary u⟩ = .ok ([u].map fun u => ⟨k, .unitary u⟩) →
      (∀ i j, i < 2 ^ k → j < 2 ^ k → uMat ang k u i j = dag (uMat ang k u) i j) →
      ∃ us, invertObject ⟨k, .unitary u⟩ = .ok (us.map fun u => ⟨k, .unitary u⟩) ∧ us ≠ [] ∧ (∀ v ∈ us, v.Shape k) ∧
      ((∀ ρ, u ≠ .GlobalPhase ρ) → ∀ v ∈ us, ∀ ρ, v ≠ .GlobalPhase ρ) ∧
      (IsUnitary k (uMat ang k u) → ∀ v ∈ us, IsUnitary k (uMat ang k v)) ∧
      (∀ idx : List ℕ, idx.length = k → idx.Nodup →
        runW ang ((us.map fun u => (⟨k, .unitary u⟩ : CObj)).map fun co => (idx, co)) = gateW idx (dag (uMat ang k u))) ∧
      ∀ idx : List ℕ, phases ang [(idx, ⟨k, .unitary u⟩)] *
        phases ang ((us.map fun u => (⟨k, .unitary u⟩ : CObj)).map fun co => (idx, co)) = 1 := by
    intro u hu hg h1 h2
    refine ⟨[u], h1, by simp, by simpa using hu, fun _ v hv ρ => ?_, by simp, fun idx hi hn => ?_, fun idx => ?_⟩
    · rw [List.mem_singleton] at hv; subst hv; exact hg ρ
    · rw [runW_singles]
      show gateW idx (uMat ang idx.length u) ∘ₗ LinearMap.id = _
      rw [LinearMap.comp_id, hi]
      exact gateW_congr idx _ _ (by rw [hi]; exact h2)
    · have : ∀ q : List ℕ × CObj, q.2.object = .unitary u → phases ang [q] = 1 := by
        intro q hq
        unfold phases phases
        rw [hq]
        cases u <;> first | exact absurd rfl (hg _) | simp
      simp only [List.map_cons, List.map_nil]
      rw [this _ rfl, one_mul]
  have m2 : ∀ (a b c d : ℂ), star a = a → star d = d → star b = c → ∀ i j, mat2 a b c d i j = dag (mat2 a b c d) i j := by
    intro a b c d h1 h2 h3 i j
    have h4 : star c = b := by rw [← h3, star_star]
    rw [dag_mat2, h1, h2, h3, h4]
  have e2 : star (1 / (Real.sqrt 2 : ℂ)) = 1 / (Real.sqrt 2 : ℂ) := by simp
  cases u with
  | X => exact one _ hs (by simp) rfl fun i j _ _ => m2 _ _ _ _ (by simp) (by simp) (by simp) i j
  | Y => exact one _ hs (by simp) rfl fun i j _ _ => m2 _ _ _ _ (by simp) (by simp) (by simp) i j
  | Z => exact one _ hs (by simp) rfl fun i j _ _ => m2 _ _ _ _ (by simp) (by simp) (by simp) i j
  | H => exact one _ hs (by simp) rfl fun i j _ _ => m2 _ _ _ _ e2 (by rw [star_neg, e2]) e2 i j
  | S =>
    obtain rfl := hs
    refine ⟨[.Z, .S], rfl, by simp, by simp [UObj.Shape], by simp, fun _ v hv => uMat_unitary ang _ v (by simp at hv; rcases hv with rfl | rfl | rfl <;> rfl) (by simp at hv; rcases hv with rfl | rfl | rfl <;> simp), fun idx hi hn => ?_, fun idx => by simp [phases]⟩
    rw [runW_singles]
    obtain ⟨q, rfl⟩ := List.length_eq_one_iff.mp hi
    show gateW [q] (mat2 1 0 0 I) ∘ₗ (gateW [q] (mat2 1 0 0 (-1)) ∘ₗ LinearMap.id) = gateW [q] (dag (mat2 1 0 0 I))
    rw [LinearMap.comp_id, dag_mat2]
    refine LinearMap.ext fun ψ => ?_
    rw [LinearMap.comp_apply, gate1_comp]
    congr 3 <;> simp
  | T =>
    obtain rfl := hs
    refine ⟨[.Z, .S, .T], rfl, by simp, by simp [UObj.Shape], by simp, fun _ v hv => uMat_unitary ang _ v (by simp at hv; rcases hv with rfl | rfl | rfl <;> rfl) (by simp at hv; rcases hv with rfl | rfl | rfl <;> simp), fun idx hi hn => ?_, fun idx => by simp [phases]⟩
    rw [runW_singles]
    obtain ⟨q, rfl⟩ := List.length_eq_one_iff.mp hi
    show gateW [q] (mat2 1 0 0 (exp (Real.pi / 4 * I))) ∘ₗ (gateW [q] (mat2 1 0 0 I) ∘ₗ (gateW [q] (mat2 1 0 0 (-1)) ∘ₗ LinearMap.id)) =
      gateW [q] (dag (mat2 1 0 0 (exp (Real.pi / 4 * I))))
    rw [LinearMap.comp_id, dag_mat2]
    refine LinearMap.ext fun ψ => ?_
    rw [LinearMap.comp_apply, LinearMap.comp_apply, gate1_comp, gate1_comp]
    have h1 : star (exp (Real.pi / 4 * I)) = exp (-(Real.pi / 4) * I) := by
      show (starRingEnd ℂ) _ = _
      rw [← exp_conj]
      congr 1
      have h4 : (starRingEnd ℂ) (4 : ℂ) = 4 := by simpa using Complex.conj_ofReal 4
      simp [h4]
    have h2 : exp (Real.pi / 4 * I) * -I = exp (-(Real.pi / 4) * I) := by
      have h : (-I : ℂ) = exp (-(Real.pi / 2) * I) := by
        rw [neg_mul, Complex.exp_neg, exp_pi_div_two_mul_I]; simp
      rw [h, ← Complex.exp_add]; congr 1; ring
    congr 3
    · simp
    · simp
    · simp
    · rw [h1, ← h2]; ring
  | CNOT =>
    refine one _ hs (by simp) rfl fun i j hi hj => ?_
    obtain rfl := hs
    have hi' : i < 4 := hi
    have hj' : j < 4 := hj
    clear hi hj
    interval_cases i <;> interval_cases j <;> simp [uMat, dag]
  | SWAP =>
    refine one _ hs (by simp) rfl fun i j hi hj => ?_
    obtain ⟨h1, h2⟩ := hs
    obtain ⟨h, hh⟩ : ∃ h, k = 2 * h := ⟨k / 2, by omega⟩
    have hd : k / 2 = h := by omega
    have hpow : (2 : ℕ) ^ k = 2 ^ h * 2 ^ h := by rw [hh, two_mul, pow_add]
    unfold dag
    simp only [uMat, hd]
    have hp : 0 < 2 ^ h := by positivity
    have key : ∀ i j, i < 2 ^ k → j < 2 ^ k → i = j % 2 ^ h * 2 ^ h + j / 2 ^ h → j = i % 2 ^ h * 2 ^ h + i / 2 ^ h := by
      intro i j hi hj e
      have hjd : j / 2 ^ h < 2 ^ h := Nat.div_lt_of_lt_mul (by rw [← hpow]; exact hj)
      have e1 : i % 2 ^ h = j / 2 ^ h := by rw [e, add_comm, Nat.add_mul_mod_self_right, Nat.mod_eq_of_lt hjd]
      have e2 : i / 2 ^ h = j % 2 ^ h := by
        rw [e, mul_comm, Nat.mul_add_div hp, Nat.div_eq_of_lt hjd, add_zero]
      rw [e1, e2, mul_comm]
      exact (Nat.div_add_mod j (2 ^ h)).symm
    by_cases h3 : i = j % 2 ^ h * 2 ^ h + j / 2 ^ h
    · rw [if_pos h3, if_pos (key i j hi hj h3), star_one]
    · rw [if_neg h3, if_neg fun h4 => h3 (key j i hj hi h4), star_zero]
  | Rz ρ =>
    obtain rfl := hs
    refine ⟨[.Rz ρ.neg], rfl, by simp, by simp [UObj.Shape], by simp, fun _ v hv => uMat_unitary ang _ v (by simp at hv; rcases hv with rfl | rfl | rfl <;> rfl) (by simp at hv; rcases hv with rfl | rfl | rfl <;> simp), fun idx hi hn => ?_, fun idx => by simp [phases]⟩
    rw [runW_singles]
    show gateW idx (rzMat (ang ρ.neg)) ∘ₗ LinearMap.id = gateW idx (dag (rzMat (ang ρ)))
    rw [LinearMap.comp_id, hang]
    unfold rzMat
    rw [dag_mat2]
    have : ∀ z : ℝ, star (exp (z * I)) = exp ((-z : ℝ) * I) := by
      intro z
      show (starRingEnd ℂ) _ = _
      rw [← exp_conj]
      congr 1
      simp
    have h1 := this (ang ρ / 2)
    have h2 := this (-(ang ρ / 2))
    push_cast at h1 h2
    rw [h1, h2]
    congr 2
    · push_cast; congr 2; ring
    · simp
    · simp
    · push_cast; congr 2; ring
  | MAT data =>
    obtain ⟨h1, h2⟩ := hs
    obtain ⟨d, d1, d2, d3⟩ := daggerData_eq k data h1
    refine ⟨[.MAT d], ?_, by simp, by simpa [UObj.Shape] using ⟨d2, h2⟩, by simp, fun hu v hv => ?_, fun idx hi hn => ?_, fun idx => by simp [phases]⟩
    · unfold invertObject
      simp only [d1]
      rfl
    · rw [List.mem_singleton] at hv
      subst hv
      exact isUnitary_congr k _ _ (fun i j a b => (d3 i j a b).symm) (isUnitary_dag k _ hu)
    · rw [runW_singles]
      show gateW idx (uMat ang idx.length (.MAT d)) ∘ₗ LinearMap.id = _
      rw [LinearMap.comp_id, hi]
      refine gateW_congr idx _ _ fun i j a b => ?_
      rw [hi] at a b
      exact d3 i j a b
  | GlobalPhase ρ =>
    refine ⟨[.GlobalPhase ρ.neg], rfl, by simp, by simpa [UObj.Shape] using hs, fun h => absurd rfl (h ρ), fun h v hv => by rw [List.mem_singleton] at hv; subst hv; exact h, fun idx hi hn => ?_, fun idx => ?_⟩
    · rw [runW_singles]
      show gateW idx (fun i j => if i = j then 1 else 0) ∘ₗ LinearMap.id = _
      rw [LinearMap.comp_id]
      refine gateW_congr idx _ _ fun i j a b => ?_
      unfold dag
      simp only [uMat]
      by_cases h : i = j
      · simp [h]
      · rw [if_neg h, if_neg fun h' => h h'.symm, star_zero]
    · simp only [phases, List.map_cons, List.map_nil, mul_one, hang]
      rw [← Complex.exp_add]
      simp

end Verif
