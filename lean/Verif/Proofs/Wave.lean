import Verif.Spec.Wave
import Mathlib.Data.Nat.Bitwise
import Mathlib.Data.List.Induction
import Mathlib.Tactic.Ring
import Mathlib.Tactic.Module

/-! # Basis states, gates on basis states -/

namespace Verif
open Complex Classical Finset

/-! ## reading and writing qubits -/

theorem readQ_snoc (idx : List ℕ) (q : ℕ) (x : Asg) : readQ (idx ++ [q]) x = 2 * readQ idx x + (x q).toNat := by
  simp [readQ]

theorem testBit_two_mul_add (a : ℕ) (b : Bool) (i : ℕ) :
    (2 * a + b.toNat).testBit i = if i = 0 then b else a.testBit (i - 1) := by
  cases i with
  | zero => cases b <;> simp [Nat.testBit_zero]
  | succ i =>
    have : (2 * a + b.toNat) / 2 = a := by cases b <;> simp <;> omega
    rw [Nat.testBit_succ, this]; simp

theorem testBit_readQ (idx : List ℕ) (x : Asg) (i : ℕ) :
    (readQ idx x).testBit i = if h : i < idx.length then x (idx[idx.length - 1 - i]) else false := by
  induction idx using List.reverseRecOn generalizing i with
  | nil => simp [readQ]
  | append_singleton idx q ih =>
    rw [readQ_snoc, testBit_two_mul_add]
    cases i with
    | zero => simp
    | succ i =>
      rw [if_neg (by omega), Nat.add_sub_cancel, ih]
      by_cases h : i < idx.length
      · rw [dif_pos h, dif_pos (by simp; omega)]
        congr 1
        rw [List.getElem_append_left (by simp; omega)]
        congr 1
        simp; omega
      · rw [dif_neg h, dif_neg (by simp; omega)]

theorem readQ_lt (idx : List ℕ) (x : Asg) : readQ idx x < 2 ^ idx.length := by
  apply Nat.lt_pow_two_of_testBit
  intro i hi
  rw [testBit_readQ, dif_neg (by omega)]

theorem writeQ_mem (idx : List ℕ) (hn : idx.Nodup) (c : ℕ) (x : Asg) (j : ℕ) (hj : j < idx.length) :
    writeQ idx c x idx[j] = c.testBit (idx.length - 1 - j) := by
  unfold writeQ
  rw [if_pos (List.getElem_mem hj), hn.idxOf_getElem]

theorem writeQ_not_mem (idx : List ℕ) (c : ℕ) (x : Asg) (q : ℕ) (h : q ∉ idx) : writeQ idx c x q = x q := by
  unfold writeQ; rw [if_neg h]

theorem readQ_writeQ (idx : List ℕ) (hn : idx.Nodup) (c : ℕ) (hc : c < 2 ^ idx.length) (x : Asg) :
    readQ idx (writeQ idx c x) = c := by
  apply Nat.eq_of_testBit_eq
  intro i
  rw [testBit_readQ]
  split
  · rename_i h
    rw [writeQ_mem idx hn]; congr 1; omega
  · rename_i h
    rw [Nat.testBit_lt_two_pow]
    exact lt_of_lt_of_le hc (Nat.pow_le_pow_right (by omega) (by omega))

theorem writeQ_eq_of_agree (idx : List ℕ) (x y : Asg) (h : ∀ q, q ∉ idx → x q = y q) :
    writeQ idx (readQ idx x) y = x := by
  funext q
  unfold writeQ
  split
  · rename_i hm
    rw [testBit_readQ, dif_pos (by have := List.idxOf_lt_length_of_mem hm; omega)]
    congr 1
    have h1 := List.idxOf_lt_length_of_mem hm
    have : idx.length - 1 - (idx.length - 1 - idx.idxOf q) = idx.idxOf q := by omega
    simp only [this]
    exact List.getElem_idxOf h1
  · rename_i hm; exact (h q hm).symm

theorem writeQ_readQ (idx : List ℕ) (x : Asg) : writeQ idx (readQ idx x) x = x :=
  writeQ_eq_of_agree idx x x fun _ _ => rfl

/-! ## linear maps on states -/

theorem wave_ext {A B : Wave →ₗ[ℂ] Wave} (h : ∀ x, A (ket x) = B (ket x)) : A = B := by
  apply Finsupp.lhom_ext'
  intro x
  apply LinearMap.ext_ring
  exact h x

theorem agree_on {A B : Wave →ₗ[ℂ] Wave} (S : Set Asg) (h : ∀ x ∈ S, A (ket x) = B (ket x)) (ψ : Wave)
    (hψ : ↑ψ.support ⊆ S) : A ψ = B ψ := by
  have : ψ = ψ.sum fun x a => a • ket x := by
    conv_lhs => rw [← Finsupp.sum_single ψ]
    apply Finsupp.sum_congr
    intro x _
    simp [ket]
  rw [this, Finsupp.sum, map_sum, map_sum]
  apply Finset.sum_congr rfl
  intro x hx
  rw [map_smul, map_smul, h x (hψ hx)]

theorem gateW_ket (idx : List ℕ) (m : ℕ → ℕ → ℂ) (x : Asg) :
    gateW idx m (ket x) = ∑ r ∈ range (2 ^ idx.length), m r (readQ idx x) • ket (writeQ idx r x) := by
  unfold gateW ket
  rw [Finsupp.linearCombination_single, one_smul]

theorem ket_apply (x y : Asg) : ket x y = if x = y then 1 else 0 := by
  unfold ket
  rw [Finsupp.single_apply]

/-- amplitudes after a gate -/
theorem gateW_apply (idx : List ℕ) (hn : idx.Nodup) (m : ℕ → ℕ → ℂ) (ψ : Wave) (y : Asg) :
    gateW idx m ψ y = ∑ c ∈ range (2 ^ idx.length), m (readQ idx y) c * ψ (writeQ idx c y) := by
  -- both sides are linear in ψ
  let L1 : Wave →ₗ[ℂ] ℂ := Finsupp.lapply y ∘ₗ gateW idx m
  let L2 : Wave →ₗ[ℂ] ℂ := ∑ c ∈ range (2 ^ idx.length), m (readQ idx y) c • Finsupp.lapply (writeQ idx c y)
  suffices h : L1 = L2 by
    have := congrArg (fun L => L ψ) h
    simpa [L1, L2] using this
  apply Finsupp.lhom_ext'
  intro x
  apply LinearMap.ext_ring
  show gateW idx m (ket x) y = L2 (ket x)
  rw [gateW_ket]
  have e1 : (∑ r ∈ range (2 ^ idx.length), m r (readQ idx x) • ket (writeQ idx r x)) y =
      ∑ r ∈ range (2 ^ idx.length), m r (readQ idx x) * (if writeQ idx r x = y then 1 else 0) := by
    rw [Finsupp.finsetSum_apply]
    apply sum_congr rfl
    intro r _
    rw [Finsupp.smul_apply, ket_apply]; rfl
  have e2 : L2 (ket x) = ∑ c ∈ range (2 ^ idx.length), m (readQ idx y) c * (if x = writeQ idx c y then 1 else 0) := by
    simp only [L2, LinearMap.sum_apply, LinearMap.smul_apply, Finsupp.lapply_apply, ket_apply, smul_eq_mul]
  rw [e1, e2]
  by_cases h : ∀ q, q ∉ idx → x q = y q
  · rw [sum_eq_single (readQ idx y), sum_eq_single (readQ idx x)]
    · rw [if_pos (writeQ_eq_of_agree idx y x fun q hq => (h q hq).symm), if_pos (writeQ_eq_of_agree idx x y h).symm]
    · intro c hc hne
      rw [if_neg, mul_zero]
      intro e
      apply hne
      rw [e, readQ_writeQ idx hn c (mem_range.mp hc)]
    · intro hh; exact absurd (mem_range.mpr (readQ_lt _ _)) hh
    · intro c hc hne
      rw [if_neg, mul_zero]
      intro e
      apply hne
      rw [← e, readQ_writeQ idx hn c (mem_range.mp hc)]
    · intro hh; exact absurd (mem_range.mpr (readQ_lt _ _)) hh
  · rw [sum_eq_zero, sum_eq_zero]
    · intro c _
      rw [if_neg, mul_zero]
      intro e
      apply h
      intro q hq
      rw [e, writeQ_not_mem _ _ _ _ hq]
    · intro c _
      rw [if_neg, mul_zero]
      intro e
      apply h
      intro q hq
      rw [← e, writeQ_not_mem _ _ _ _ hq]

theorem runW_append (ang : Rot → ℝ) (p q : Pipeline) (ψ : Wave) :
    runW ang (p ++ q) ψ = runW ang q (runW ang p ψ) := by
  induction p generalizing ψ with
  | nil => rfl
  | cons e p ih => simp [runW, ih]

theorem runW_cons (ang : Rot → ℝ) (e : List ℕ × CObj) (p : Pipeline) (ψ : Wave) :
    runW ang (e :: p) ψ = runW ang p (entryW ang e ψ) := rfl

@[simp] theorem runW_nil (ang : Rot → ℝ) (ψ : Wave) : runW ang [] ψ = ψ := rfl

/-! ## one-qubit gates and CNOT on basis states -/

theorem writeQ_single (q c : ℕ) (x : Asg) : writeQ [q] c x = setQ q (c.testBit 0) x := by
  funext p
  unfold writeQ
  by_cases h : p = q
  · subst h; simp
  · simp [h]

theorem readQ_single (q : ℕ) (x : Asg) : readQ [q] x = (x q).toNat := by simp [readQ]

theorem gate1_ket (q : ℕ) (m : ℕ → ℕ → ℂ) (x : Asg) :
    gateW [q] m (ket x) = m 0 (x q).toNat • ket (setQ q false x) + m 1 (x q).toNat • ket (setQ q true x) := by
  rw [gateW_ket, readQ_single]
  simp only [List.length_singleton, pow_one]
  rw [sum_range_succ, sum_range_one, writeQ_single, writeQ_single]
  rfl

theorem setQ_ne {p q : ℕ} (h : p ≠ q) (b : Bool) (x : Asg) : setQ q b x p = x p := Function.update_of_ne h _ _

theorem setQ_eq (q : ℕ) (b : Bool) (x : Asg) : setQ q b x q = b := Function.update_self _ _ _

theorem setQ_self (q : ℕ) (x : Asg) (v : Bool) (h : x q = v) : setQ q v x = x := by
  subst h; exact Function.update_eq_self q x

/-- gates on different qubits commute -/
theorem gate1_comm (p q : ℕ) (hpq : p ≠ q) (A B : ℕ → ℕ → ℂ) (ψ : Wave) :
    gateW [p] A (gateW [q] B ψ) = gateW [q] B (gateW [p] A ψ) := by
  suffices h : gateW [p] A ∘ₗ gateW [q] B = gateW [q] B ∘ₗ gateW [p] A by
    exact congrArg (fun L => L ψ) h
  apply wave_ext
  intro x
  simp only [LinearMap.comp_apply, gate1_ket, map_add, map_smul, Function.update_of_ne hpq,
    Function.update_of_ne hpq.symm, Function.update_comm hpq]
  module

theorem mat2_toNat (a b c d : ℂ) (v : Bool) :
    mat2 a b c d 0 v.toNat = (if v then b else a) ∧ mat2 a b c d 1 v.toNat = (if v then d else c) := by
  cases v <;> simp [mat2]

variable (ang : Rot → ℝ)

/-- a one-qubit gate -/
noncomputable abbrev u1 (q : ℕ) (u : UObj) : Wave →ₗ[ℂ] Wave := gateW [q] (uMat ang 1 u)

theorem entryW_u1 (q n : ℕ) (u : UObj) : entryW ang ([q], ⟨n, .unitary u⟩) = u1 ang q u := rfl

theorem x_ket (q : ℕ) (x : Asg) : u1 ang q .X (ket x) = ket (flipQ q x) := by
  rw [gate1_ket, uMat, (mat2_toNat _ _ _ _ _).1, (mat2_toNat _ _ _ _ _).2, flipQ]
  cases x q <;> simp

theorem phase_ket (q : ℕ) (a : ℂ) (x : Asg) :
    gateW [q] (mat2 1 0 0 a) (ket x) = (if x q then a else 1) • ket x := by
  rw [gate1_ket, (mat2_toNat _ _ _ _ _).1, (mat2_toNat _ _ _ _ _).2]
  cases h : x q
  · simp [setQ_self q x false h]
  · simp [setQ_self q x true h]

theorem z_ket (q : ℕ) (x : Asg) : u1 ang q .Z (ket x) = (if x q then -1 else 1 : ℂ) • ket x := phase_ket q _ x
theorem s_ket (q : ℕ) (x : Asg) : u1 ang q .S (ket x) = (if x q then I else 1 : ℂ) • ket x := phase_ket q _ x
theorem t_ket (q : ℕ) (x : Asg) :
    u1 ang q .T (ket x) = (if x q then exp (Real.pi / 4 * I) else 1 : ℂ) • ket x := phase_ket q _ x

theorem y_ket (q : ℕ) (x : Asg) :
    u1 ang q .Y (ket x) = (if x q then -I else I : ℂ) • ket (flipQ q x) := by
  rw [gate1_ket, uMat, (mat2_toNat _ _ _ _ _).1, (mat2_toNat _ _ _ _ _).2, flipQ]
  cases x q <;> simp

theorem h_ket (q : ℕ) (x : Asg) :
    u1 ang q .H (ket x) = (1 / Real.sqrt 2 : ℂ) • ket (setQ q false x) +
      ((if x q then -1 else 1) * (1 / Real.sqrt 2 : ℂ)) • ket (setQ q true x) := by
  rw [gate1_ket, uMat, (mat2_toNat _ _ _ _ _).1, (mat2_toNat _ _ _ _ _).2]
  cases x q <;> simp

theorem sqrt2_sq : (1 / Real.sqrt 2 : ℂ) * (1 / Real.sqrt 2 : ℂ) = 1 / 2 := by
  rw [div_mul_div_comm, one_mul, ← Complex.ofReal_mul, Real.mul_self_sqrt (by norm_num)]
  norm_num

theorem hh (q : ℕ) (ψ : Wave) : u1 ang q .H (u1 ang q .H ψ) = ψ := by
  suffices h : u1 ang q .H ∘ₗ u1 ang q .H = LinearMap.id by
    exact congrArg (fun L => L ψ) h
  apply wave_ext
  intro x
  have s2 := sqrt2_sq
  simp only [LinearMap.comp_apply, LinearMap.id_apply]
  rw [h_ket, map_add, map_smul, map_smul, h_ket, h_ket]
  simp only [Function.update_idem, Function.update_self]
  generalize (1 / Real.sqrt 2 : ℂ) = r at *
  cases h : x q
  · rw [show Function.update x q false = x from setQ_self q x false h]
    simp only [Bool.false_eq_true, if_false, if_true]
    linear_combination (norm := module) (2 * s2) • ket x
  · rw [show Function.update x q true = x from setQ_self q x true h]
    simp only [Bool.false_eq_true, if_false, if_true]
    linear_combination (norm := module) (2 * s2) • ket x

theorem hzh (q : ℕ) (ψ : Wave) : u1 ang q .H (u1 ang q .Z (u1 ang q .H ψ)) = u1 ang q .X ψ := by
  suffices h : u1 ang q .H ∘ₗ u1 ang q .Z ∘ₗ u1 ang q .H = u1 ang q .X by
    exact congrArg (fun L => L ψ) h
  apply wave_ext
  intro x
  have s2 := sqrt2_sq
  simp only [LinearMap.comp_apply]
  rw [h_ket, map_add, map_smul, map_smul, z_ket, z_ket, map_add, map_smul, map_smul, map_smul, map_smul, h_ket, h_ket,
    x_ket, flipQ]
  simp only [Function.update_idem, Function.update_self]
  generalize (1 / Real.sqrt 2 : ℂ) = r at *
  cases h : x q
  · simp only [Bool.false_eq_true, if_false, if_true, Bool.not_false]
    linear_combination (norm := module) (2 * s2) • ket (setQ q true x)
  · simp only [Bool.false_eq_true, if_false, if_true, Bool.not_true]
    linear_combination (norm := module) (2 * s2) • ket (setQ q false x)

theorem readQ_pair (a b : ℕ) (x : Asg) : readQ [a, b] x = 2 * (x a).toNat + (x b).toNat := by simp [readQ]

theorem writeQ_pair (a b : ℕ) (hab : a ≠ b) (c : ℕ) (x : Asg) :
    writeQ [a, b] c x = setQ b (c.testBit 0) (setQ a (c.testBit 1) x) := by
  funext p
  unfold writeQ
  by_cases h1 : p = b
  · subst h1
    have : ([a, p] : List ℕ).idxOf p = 1 := by
      rw [List.idxOf_cons_ne _ hab]; simp
    simp [this]
  · by_cases h2 : p = a
    · subst h2
      simp [h1]
    · simp [h1, h2]

/-- CNOT -/
theorem cnot_ket (c t : ℕ) (hct : c ≠ t) (x : Asg) :
    gateW [c, t] (uMat ang 2 .CNOT) (ket x) = ket (if x c then flipQ t x else x) := by
  rw [gateW_ket, readQ_pair]
  simp only [List.length_cons, List.length_nil, Nat.zero_add, Nat.reduceAdd]
  rw [show (2 : ℕ) ^ 2 = 4 from rfl]
  simp only [sum_range_succ, sum_range_zero, uMat, writeQ_pair c t hct, flipQ]
  have t1 : ∀ i : ℕ, i < 4 → (i.testBit 0, i.testBit 1) =
    if i = 0 then (false, false) else if i = 1 then (true, false) else if i = 2 then (false, true) else (true, true) := by
    decide
  cases h1 : x c <;> cases h2 : x t
  all_goals
    have e1 := setQ_self c x _ h1
    simp [Nat.testBit, h2, e1, setQ_self t x _ h2]

end Verif
