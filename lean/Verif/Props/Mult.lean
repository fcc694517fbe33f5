import Verif.Proofs.CondAddInv2
import Verif.Props.AddMod

/-!
# Property C67: subtractions inside conditions

C67: refuted; `add_inv` is a subcircuit with `H` (see C58). Exact criterion: the subtraction works if and only if every bit of the number
subtracted is set in the other number.
-/

namespace Verif.Props
open Classical Complex RegOps CircuitBuilder Rooted

/-! ## C67 -/

/-- C67: `add_inv` inside conditions that hold subtracts -/
def C67_claim : Prop :=
  ∀ (s : LocalBuilder) (crs : List Reg) (c0 : ℕ) (ct a b : Reg) (L : List ℕ) (x : Asg), crs ≠ [] → (∀ c ∈ crs, c ≠ []) →
    a.length = ct.length + 1 → b.length = ct.length + 2 → Own s (crs.flatten ++ [c0 :: ct, a, b].flatten ++ L) → Clean s x →
    (∀ q ∈ c0 :: ct, x q = false) → (∀ c ∈ crs.flatten, x c = true) →
    Sends rotAngle (under crs (Arith.addInv [c0 :: ct, a, b])) s ([c0 :: ct, a, b], crs) x
      (putVal b ((valQ b x + (2 ^ b.length - valQ a x)) % 2 ^ b.length) x)

/-- the effect inside conditions -/
theorem addInv_under (s : LocalBuilder) (crs : List Reg) (c0 : ℕ) (ct a b : Reg) (L : List ℕ) (hne : crs ≠ []) (hc : ∀ c ∈ crs, c ≠ [])
    (ha : a.length = ct.length + 1) (hb : b.length = ct.length + 2) (ho : Own s (crs.flatten ++ [c0 :: ct, a, b].flatten ++ L)) :
    Does rotAngle (under crs (Arith.addInv [c0 :: ct, a, b])) s ([c0 :: ct, a, b], crs) (crs.flatten ++ [c0 :: ct, a, b].flatten ++ L)
      (fun x => if ∀ c ∈ crs.flatten, x c = true then subV (c0 :: ct) a b x else ket x) :=
  under_does crs _ hc ((Moves.addInv hne c0 ct a b ha hb).does _ L (ctl_stack crs s hc) (by rw [root_stack]; exact ho))

/-- bits and values -/
theorem covers_iff (a b : Reg) (hl : a.length ≤ b.length) (x : Asg) :
    (∀ i < a.length, x (a.getD i 0) = true → x (b.getD i 0) = true) ↔ valQ a x &&& valQ b x = valQ a x := by
  constructor
  · intro h
    apply Nat.eq_of_testBit_eq
    intro i
    rw [Nat.testBit_and, testBit_valQ, testBit_valQ]
    by_cases hi : i < a.length
    · have := h i hi
      rw [List.getD_eq_getElem _ _ hi, List.getD_eq_getElem _ _ (by omega)] at this
      rw [dif_pos hi, dif_pos (by omega)]
      revert this
      cases x a[i] <;> simp
    · rw [dif_neg hi, Bool.false_and]
  · intro h i hi
    have := congrArg (fun v => v.testBit i) h
    simp only [Nat.testBit_and, testBit_valQ, dif_pos hi, dif_pos (show i < b.length by omega)] at this
    rw [List.getD_eq_getElem _ _ hi, List.getD_eq_getElem _ _ (by omega)]
    intro h1
    rw [h1, Bool.true_and] at this
    exact this

/-- the value after a subtraction -/
theorem sub_putVal (c0 : ℕ) (ct a b : Reg) (hn : ((c0 :: ct) ++ a ++ b).Nodup) (ha : a.length = ct.length + 1) (hb : b.length = ct.length + 2)
    (x : Asg) (hx : ∀ q ∈ c0 :: ct, x q = false) :
    subMap (c0 :: ct) a b x = putVal b ((valQ b x + (2 ^ b.length - valQ a x)) % 2 ^ b.length) x := by
  obtain ⟨v, k⟩ := sub_value c0 ct a b hn ha hb x (fun q hq => hx q (by simp [hq]))
  funext q
  by_cases hq : q ∈ b
  · refine valQ_inj b _ _ ?_ q hq
    rw [valQ_putVal b (List.nodup_append.mp hn).2.1 _ (Nat.mod_lt _ (by positivity))]
    have hlt := valQ_lt a x
    have hle : valQ a x ≤ 2 ^ b.length := by
      have : (2 : ℕ) ^ a.length ≤ 2 ^ b.length := Nat.pow_le_pow_right (by omega) (by omega)
      omega
    have : (((valQ b x + (2 ^ b.length - valQ a x)) % 2 ^ b.length : ℕ) : ℤ) = (valQ b x - valQ a x - (x c0).toNat) % 2 ^ b.length := by
      rw [hx c0 (by simp)]
      push_cast [Nat.cast_sub hle]
      rw [Bool.toNat_false, Nat.cast_zero, sub_zero, show (valQ b x : ℤ) + (2 ^ b.length - valQ a x) = valQ b x - valQ a x + 2 ^ b.length by ring,
        Int.add_emod_right]
    rw [← this] at v
    exact_mod_cast v
  · rw [k q hq]; exact (if_neg hq).symm

/-- Inside conditions that hold, `add_inv` subtracts if every bit of `a` is set in `b`. Otherwise it gives no basis state at all. -/
theorem C67_exact_partial (s : LocalBuilder) (crs : List Reg) (c0 : ℕ) (ct a b : Reg) (L : List ℕ) (x : Asg) (hne : crs ≠ []) (hc : ∀ c ∈ crs, c ≠ [])
    (ha : a.length = ct.length + 1) (hb : b.length = ct.length + 2) (ho : Own s (crs.flatten ++ [c0 :: ct, a, b].flatten ++ L)) (hx : Clean s x)
    (h0 : ∀ q ∈ c0 :: ct, x q = false) (h1 : ∀ c ∈ crs.flatten, x c = true) :
    (valQ a x &&& valQ b x = valQ a x → Sends rotAngle (under crs (Arith.addInv [c0 :: ct, a, b])) s ([c0 :: ct, a, b], crs) x
      (putVal b ((valQ b x + (2 ^ b.length - valQ a x)) % 2 ^ b.length) x)) ∧
    ∀ y, Sends rotAngle (under crs (Arith.addInv [c0 :: ct, a, b])) s ([c0 :: ct, a, b], crs) x y → valQ a x &&& valQ b x = valQ a x := by
  have hn : ((c0 :: ct) ++ a ++ b).Nodup := by
    have := (List.nodup_append.mp (List.nodup_append.mp ho.left).1).2.1
    simpa using this
  have e := fun y => sends_of_does (addInv_under s crs c0 ct a b L hne hc ha hb ho) hx y
  simp only [if_pos h1, subV_iff ct c0 a b ha hb hn] at e
  have hcv := (sub_noCarry ct c0 a b ha hb hn x h0).trans (covers_iff a b (by omega) x)
  refine ⟨fun h => (e _).mpr ⟨(sub_putVal c0 ct a b hn ha hb x h0).symm, ?_⟩, fun y hy => ?_⟩
  · rw [← sub_putVal c0 ct a b hn ha hb x h0]
    exact hcv.mpr h
  · obtain ⟨rfl, h2⟩ := (e y).mp hy
    exact hcv.mp h2

/-- If a condition does not hold, nothing happens. -/
theorem C67_not_held (s : LocalBuilder) (crs : List Reg) (c0 : ℕ) (ct a b : Reg) (L : List ℕ) (x : Asg) (hc : ∀ c ∈ crs, c ≠ [])
    (ha : a.length = ct.length + 1) (hb : b.length = ct.length + 2) (ho : Own s (crs.flatten ++ [c0 :: ct, a, b].flatten ++ L)) (hx : Clean s x)
    (h1 : ¬ ∀ c ∈ crs.flatten, x c = true) :
    Sends rotAngle (under crs (Arith.addInv [c0 :: ct, a, b])) s ([c0 :: ct, a, b], crs) x x := by
  have hne : crs ≠ [] := by rintro rfl; simp at h1
  exact (sends_of_does (addInv_under s crs c0 ct a b L hne hc ha hb ho) hx x).mpr (if_neg h1)

/-- 2 - 1 with two qubits, inside one condition -/
theorem C67_refuted : ¬ C67_claim := by
  intro h
  have h1 := h eightQubits [[7]] 0 [1] [2, 3] [4, 5, 6] [] (ones [7, 2, 5]) (by simp) (by simp) rfl rfl eightQubits_own (ones_clean 8 _ (by simp)) (by simp [ones]) (by simp [ones])
  have h2 := (C67_exact_partial eightQubits [[7]] 0 [1] [2, 3] [4, 5, 6] [] (ones [7, 2, 5]) (by simp) (by simp) rfl rfl eightQubits_own (ones_clean 8 _ (by simp))
    (by simp [ones]) (by simp [ones])).2 _ h1
  simp [ones, valQ] at h2

/-- 7 - 2 = 5 inside the condition -/
example : Sends rotAngle (under [[7]] (Arith.addInv [[0, 1], [2, 3], [4, 5, 6]])) eightQubits ([[0, 1], [2, 3], [4, 5, 6]], [[7]]) (ones [7, 3, 4, 5, 6])
    (putVal [4, 5, 6] ((valQ [4, 5, 6] (ones [7, 3, 4, 5, 6]) + (2 ^ 3 - valQ [2, 3] (ones [7, 3, 4, 5, 6]))) % 2 ^ 3) (ones [7, 3, 4, 5, 6])) ∧
    (valQ [4, 5, 6] (ones [7, 3, 4, 5, 6]) + (2 ^ 3 - valQ [2, 3] (ones [7, 3, 4, 5, 6]))) % 2 ^ 3 = 5 := by
  refine ⟨(C67_exact_partial eightQubits [[7]] 0 [1] [2, 3] [4, 5, 6] [] (ones [7, 3, 4, 5, 6]) (by simp) (by simp) rfl rfl eightQubits_own
    (ones_clean 8 _ (by simp)) (by simp [ones]) (by simp [ones])).1 ?_, by simp [ones, valQ]⟩
  simp [ones, valQ]

example := C67_not_held eightQubits [[7]] 0 [1] [2, 3] [4, 5, 6] [] (ones [2, 4]) (by simp) rfl rfl eightQubits_own (ones_clean 8 _ (by simp)) (by simp [ones])

end Verif.Props
