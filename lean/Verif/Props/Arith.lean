import Verif.Proofs.Shift2
import Verif.Props.Sub

/-!
# Properties C44 to C48: the arithmetic circuits

`valQ r x` is the value of the register `r` in the basis state `x`, first qubit least significant. `sumMap`, `carryMap` and
`rotate` are in `Spec/Arith.lean`. `hang` says that the angle of an inverted rotation is the negative one.
-/

namespace Verif.Props
open Classical RegOps CircuitBuilder Rooted

variable {ang : Rot → ℝ}

/-! ## C44 -/

/-- `sum` under any conditions -/
theorem C44_sum (s : LocalBuilder) (crs : List Reg) (c a b : ℕ) (L : List ℕ) (hc : ∀ c ∈ crs, c ≠ []) (ho : Own s (crs.flatten ++ [c, a, b] ++ L)) :
    Does ang (under crs (Arith.sum [[c], [a], [b]])) s ([[c], [a], [b]], crs) (crs.flatten ++ [c, a, b] ++ L)
      (fun x => ket (if ∀ c ∈ crs.flatten, x c = true then sumMap c a b x else x)) :=
  (Maps.sum crs c a b).under hc s L ho

/-- `carry` under any conditions -/
theorem C44_carry (s : LocalBuilder) (crs : List Reg) (c a b d : ℕ) (L : List ℕ) (hc : ∀ c ∈ crs, c ≠ [])
    (ho : Own s (crs.flatten ++ [c, a, b, d] ++ L)) :
    Does ang (under crs (Arith.carry [[c], [a], [b], [d]])) s ([[c], [a], [b], [d]], crs) (crs.flatten ++ [c, a, b, d] ++ L)
      (fun x => ket (if ∀ c ∈ crs.flatten, x c = true then carryMap c a b d x else x)) :=
  (Maps.carry crs c a b d).under hc s L ho

/-- `carry_inv` does what `carry` does -/
theorem C44_carry_inv (hang : ∀ ρ, ang (Rot.neg ρ) = -ang ρ) (s : LocalBuilder) (c a b d : ℕ) (L : List ℕ) (ho : Own s ([c, a, b, d] ++ L)) :
    Does ang (Arith.carryInv [[c], [a], [b], [d]]) s [[c], [a], [b], [d]] ([c, a, b, d] ++ L) (fun x => ket (carryMap c a b d x)) :=
  ((Maps.carryInv hang c a b d).does s L rfl ho).congrU fun x _ => by simp

/-- `carry_inv` undoes `carry`, in either order -/
theorem C44_undoes (hang : ∀ ρ, ang (Rot.neg ρ) = -ang ρ) (s : LocalBuilder) (c a b d : ℕ) (L : List ℕ) (ho : Own s ([c, a, b, d] ++ L)) :
    Does ang (Arith.carry [[c], [a], [b], [d]] >>= Arith.carryInv) s [[c], [a], [b], [d]] ([c, a, b, d] ++ L) ket ∧
    Does ang (Arith.carryInv [[c], [a], [b], [d]] >>= Arith.carry) s [[c], [a], [b], [d]] ([c, a, b, d] ++ L) ket := by
  have hn : [c, a, b, d].Nodup := (List.nodup_append.mp ho.left).1
  have h1 := Maps.carry (ang := ang) (β := LocalBuilder) [] c a b d
  have h2 := Maps.carryInv hang c a b d
  constructor
  · refine ((h1.bind h2).does s L rfl ho).congrU fun x _ => ?_
    rw [carryMap_carryMap c a b d hn, ite_self]
  · refine ((h2.bind h1).does s L rfl ho).congrU fun x _ => ?_
    rw [carryMap_carryMap c a b d hn, ite_self]

example (ang : Rot → ℝ) : Does ang (under [[3]] (Arith.sum [[2], [0], [1]])) fiveQubits ([[2], [0], [1]], [[3]]) ([3] ++ [2, 0, 1] ++ [])
    (fun x => ket (if ∀ c ∈ ([[3]] : List Reg).flatten, x c = true then sumMap 2 0 1 x else x)) :=
  C44_sum fiveQubits [[3]] 2 0 1 [] (by simp) ⟨by simp [fiveQubits], by decide, by decide⟩

/-- 1 + 1 + 0: the sum bit is 0, the carry is flipped -/
example : sumMap 2 0 1 (fun q => decide (q ≤ 1)) 1 = false ∧ carryMap 2 0 1 3 (fun q => decide (q ≤ 1)) 3 = true := by
  constructor <;> simp [sumMap, carryMap, maj]

example (ang : Rot → ℝ) : Does ang (under [] (Arith.carry [[2], [0], [1], [3]])) fiveQubits ([[2], [0], [1], [3]], []) ([] ++ [2, 0, 1, 3] ++ [])
    (fun x => ket (if ∀ c ∈ ([] : List Reg).flatten, x c = true then carryMap 2 0 1 3 x else x)) :=
  C44_carry fiveQubits [] 2 0 1 3 [] (by simp) ⟨by simp [fiveQubits], by decide, by decide⟩

example := C44_carry_inv rotAngle_neg fiveQubits 2 0 1 3 [] ⟨by simp [fiveQubits], by decide, by decide⟩
example := C44_undoes rotAngle_neg fiveQubits 2 0 1 3 [] ⟨by simp [fiveQubits], by decide, by decide⟩

/-! ## C45 -/

/-- `add` on basis states with zero carries (except the first) adds `a` and the first carry to `b`, modulo `2^(n+1)`, and changes
no other qubit. -/
theorem C45_add (hang : ∀ ρ, ang (Rot.neg ρ) = -ang ρ) (s : LocalBuilder) (c0 : ℕ) (ct a b : Reg) (L : List ℕ)
    (ha : a.length = ct.length + 1) (hb : b.length = ct.length + 2) (ho : Own s ([c0 :: ct, a, b].flatten ++ L)) :
    ∃ φ : Asg → Asg,
      Does ang (Arith.add [c0 :: ct, a, b]) s [c0 :: ct, a, b] ([c0 :: ct, a, b].flatten ++ L) (fun x => ket (φ x)) ∧
      ∀ x, (∀ q ∈ ct, x q = false) →
        valQ b (φ x) = (valQ a x + valQ b x + (x c0).toNat) % 2 ^ b.length ∧ ∀ q, q ∉ b → φ x q = x q := by
  have hn : ((c0 :: ct) ++ a ++ b).Nodup := by simpa using (List.nodup_append.mp ho.left).1
  refine ⟨addMap (c0 :: ct) a b, ((Maps.add hang c0 ct a b ha hb).does s L rfl ho).congrU fun x _ => by simp, fun x hx => ?_⟩
  rw [Nat.add_comm (valQ a x)]
  exact add_value c0 ct a b hn ha hb x hx

/-- Other sizes are an error, and nothing is added to the circuit. -/
theorem C45_sizes {k : ℕ} (s : NB k) (rc ra rb : Reg) (h : ¬ (rc.length = ra.length ∧ rc.length + 1 = rb.length)) :
    Arith.add [rc, ra, rb] s = .error .error s := by
  unfold Arith.add Arith.addF
  rw [if_neg (by omega), if_neg h]
  rfl

/-- `add` on three registers in a builder with seven qubits: the carries are `[0, 1]`, `a` is `[2, 3]`, `b` is `[4, 5, 6]` -/
def sevenQubits : LocalBuilder := ⟨[], 7, [], 0⟩

theorem sevenQubits_own : Own sevenQubits ([[0, 1], [2, 3], [4, 5, 6]].flatten ++ []) := ⟨by simp [sevenQubits], by decide, by decide⟩

example := C45_add (a := [2, 3]) (b := [4, 5, 6]) rotAngle_neg sevenQubits 0 [1] [] (by rfl) (by rfl) sevenQubits_own

/-- 3 + 5 + 0 = 0 modulo 8 -/
example : ∃ φ : Asg → Asg,
    Does rotAngle (Arith.add [[0, 1], [2, 3], [4, 5, 6]]) sevenQubits [[0, 1], [2, 3], [4, 5, 6]] [0, 1, 2, 3, 4, 5, 6] (fun x => ket (φ x)) ∧
    valQ [4, 5, 6] (φ fun q => decide (q = 2 ∨ q = 3 ∨ q = 4 ∨ q = 6)) = 0 := by
  obtain ⟨φ, h, hv⟩ := C45_add (a := [2, 3]) (b := [4, 5, 6]) rotAngle_neg sevenQubits 0 [1] [] (by rfl) (by rfl) sevenQubits_own
  exact ⟨φ, h, by rw [(hv _ (by simp)).1]; simp [valQ]⟩

example : Arith.add [[0], [2, 3], [4, 5, 6]] (sevenQubits : NB 0) = .error .error sevenQubits :=
  C45_sizes (k := 0) sevenQubits [0] [2, 3] [4, 5, 6] (by simp)

/-! ## C46 -/

/-- `add_inv` subtracts -/
theorem C46_add_inv (hang : ∀ ρ, ang (Rot.neg ρ) = -ang ρ) (s : LocalBuilder) (c0 : ℕ) (ct a b : Reg) (L : List ℕ)
    (ha : a.length = ct.length + 1) (hb : b.length = ct.length + 2) (ho : Own s ([c0 :: ct, a, b].flatten ++ L)) :
    ∃ φ : Asg → Asg,
      Does ang (Arith.addInv [c0 :: ct, a, b]) s [c0 :: ct, a, b] ([c0 :: ct, a, b].flatten ++ L) (fun x => ket (φ x)) ∧
      ∀ x, (∀ q ∈ ct, x q = false) →
        (valQ b (φ x) : ℤ) = (valQ b x - valQ a x - (x c0).toNat) % 2 ^ b.length ∧ ∀ q, q ∉ b → φ x q = x q := by
  have hn : ((c0 :: ct) ++ a ++ b).Nodup := by simpa using (List.nodup_append.mp ho.left).1
  exact ⟨subMap (c0 :: ct) a b, ((Maps.addInv hang c0 ct a b ha hb).does s L rfl ho).congrU fun x _ => by simp,
    fun x hx => sub_value c0 ct a b hn ha hb x hx⟩

/-- `add_inv` is the inverse of `add` on every state, also with non-zero carries -/
theorem C46_inverse (hang : ∀ ρ, ang (Rot.neg ρ) = -ang ρ) (s : LocalBuilder) (c0 : ℕ) (ct a b : Reg) (L : List ℕ)
    (ha : a.length = ct.length + 1) (hb : b.length = ct.length + 2) (ho : Own s ([c0 :: ct, a, b].flatten ++ L)) :
    Does ang (Arith.add [c0 :: ct, a, b] >>= Arith.addInv) s [c0 :: ct, a, b] ([c0 :: ct, a, b].flatten ++ L) ket ∧
    Does ang (Arith.addInv [c0 :: ct, a, b] >>= Arith.add) s [c0 :: ct, a, b] ([c0 :: ct, a, b].flatten ++ L) ket := by
  have hn : ((c0 :: ct) ++ a ++ b).Nodup := by simpa using (List.nodup_append.mp ho.left).1
  have h1 := Maps.add hang c0 ct a b ha hb
  have h2 := Maps.addInv hang c0 ct a b ha hb
  constructor
  · refine ((h1.bind h2).does s L rfl ho).congrU fun x _ => ?_
    rw [sub_add (c0 :: ct) a b hn, ite_self]
  · refine ((h2.bind h1).does s L rfl ho).congrU fun x _ => ?_
    rw [add_sub (c0 :: ct) a b hn, ite_self]

/-- 1 - 3 = 6 modulo 8 -/
example : ∃ φ : Asg → Asg,
    Does rotAngle (Arith.addInv [[0, 1], [2, 3], [4, 5, 6]]) sevenQubits [[0, 1], [2, 3], [4, 5, 6]] [0, 1, 2, 3, 4, 5, 6] (fun x => ket (φ x)) ∧
    (valQ [4, 5, 6] (φ fun q => decide (q = 2 ∨ q = 3 ∨ q = 4)) : ℤ) = 6 := by
  obtain ⟨φ, h, hv⟩ := C46_add_inv (a := [2, 3]) (b := [4, 5, 6]) rotAngle_neg sevenQubits 0 [1] [] (by rfl) (by rfl) sevenQubits_own
  exact ⟨φ, h, by rw [(hv _ (by simp)).1]; simp [valQ]⟩

example := C46_inverse (a := [2, 3]) (b := [4, 5, 6]) rotAngle_neg sevenQubits 0 [1] [] (by rfl) (by rfl) sevenQubits_own

/-! ## C47 -/

/-- `rshift` under any conditions moves the value of every qubit to the next one, the last to the first -/
theorem C47_rshift (s : LocalBuilder) (crs : List Reg) (r : Reg) (L : List ℕ) (hc : ∀ c ∈ crs, c ≠ []) (hr : r ≠ [])
    (ho : Own s (crs.flatten ++ r ++ L)) :
    Does ang (under crs (Arith.rshift [r])) s ([r], crs) (crs.flatten ++ r ++ L)
      (fun x => ket (if ∀ c ∈ crs.flatten, x c = true then rotate 1 r x else x)) :=
  (Maps.rshift crs r hr).under hc s L ho

/-- what moving means for the qubits -/
theorem C47_moves (r : Reg) (hr : r ≠ []) (hn : r.Nodup) (x : Asg) :
    (∀ k, k < r.length → rotate 1 r x (r.getD ((k + 1) % r.length) 0) = x (r.getD k 0)) ∧ ∀ q, q ∉ r → rotate 1 r x q = x q := by
  have hpos : 0 < r.length := List.length_pos_iff.mpr hr
  refine ⟨fun k hk => ?_, fun q hq => rotate_keeps 1 r x q hq⟩
  rw [rotate_at 1 r hn x _ (Nat.mod_lt _ hpos)]
  congr 2
  by_cases h1 : r.length = 1
  · rw [h1]; omega
  · rw [Nat.mod_eq_of_lt (show 1 < r.length by omega)]
    by_cases h2 : k + 1 = r.length
    · rw [h2, Nat.mod_self, Nat.mod_eq_of_lt (by omega)]; omega
    · rw [Nat.mod_eq_of_lt (show k + 1 < r.length by omega), show k + 1 + (r.length - 1) = k + r.length by omega, Nat.add_mod_right,
        Nat.mod_eq_of_lt hk]

/-- what moving means for the value of the register: it is doubled, the top bit becomes the lowest -/
theorem C47_doubles (r : Reg) (hr : r ≠ []) (hn : r.Nodup) (x : Asg) :
    valQ r (rotate 1 r x) = 2 * valQ r x % 2 ^ r.length + (x (r.getLast hr)).toNat := by
  obtain ⟨m, hm⟩ : ∃ m, r.length = m + 1 := ⟨r.length - 1, by have := List.length_pos_iff.mpr hr; omega⟩
  have hl : r.getLast hr = r.getD m 0 := by
    rw [List.getLast_eq_getElem, List.getD_eq_getElem _ _ (by omega)]
    congr 1; omega
  obtain ⟨hv, -⟩ := C47_moves r hr hn x
  rw [hl, hm, pow_succ', Nat.mul_mod_mul_left]
  apply Nat.eq_of_testBit_eq
  intro i
  rw [testBit_valQ]
  cases i with
  | zero =>
    have h0 := hv m (by omega)
    rw [hm, Nat.mod_self, List.getD_eq_getElem _ _ (by omega)] at h0
    rw [dif_pos (by omega), h0, Nat.testBit_zero]
    cases x (r.getD m 0) <;> simp
  | succ i =>
    rw [Nat.testBit_succ, show (2 * (valQ r x % 2 ^ m) + (x (r.getD m 0)).toNat) / 2 = valQ r x % 2 ^ m by
      have := Bool.toNat_le (x (r.getD m 0)); omega, Nat.testBit_mod_two_pow, testBit_valQ]
    by_cases hi : i + 1 < r.length
    · have h1 := hv i (by omega)
      rw [Nat.mod_eq_of_lt hi, List.getD_eq_getElem _ _ hi, List.getD_eq_getElem _ _ (by omega)] at h1
      rw [dif_pos hi, h1, dif_pos (by omega)]
      simp; omega
    · rw [dif_neg hi]
      simp; omega

/-- with the top bit 0 the value is doubled -/
theorem C47_doubles_low (r : Reg) (hr : r ≠ []) (hn : r.Nodup) (x : Asg) (hx : x (r.getLast hr) = false) :
    valQ r (rotate 1 r x) = 2 * valQ r x := by
  have h := C47_doubles r hr hn x
  rw [hx] at h
  rw [h, Bool.toNat_false, Nat.add_zero, Nat.mod_eq_of_lt]
  obtain ⟨m, hm⟩ : ∃ m, r.length = m + 1 := ⟨r.length - 1, by have := List.length_pos_iff.mpr hr; omega⟩
  have hb : ∀ i, m ≤ i → (valQ r x).testBit i = false := by
    intro i hi
    rw [testBit_valQ]
    split
    · rename_i h
      have : i = m := by omega
      subst this
      rw [← hx, List.getLast_eq_getElem]
      congr 2; omega
    · rfl
  have := Nat.lt_pow_two_of_testBit _ hb
  rw [hm, pow_succ]; omega

/-- the claim that `lshift` is the inverse of `rshift` for registers of every size -/
def C47_claim : Prop := ∀ ang : Rot → ℝ, (∀ ρ, ang (Rot.neg ρ) = -ang ρ) → ∀ (s : LocalBuilder) (r : Reg) (L : List ℕ), r ≠ [] →
  Own s (r ++ L) → Does ang (Arith.rshift [r] >>= Arith.lshift) s [r] (r ++ L) ket

/-- It holds for registers of at least two qubits (in both orders), where `lshift` moves values the other way. -/
theorem C47_lshift_partial (hang : ∀ ρ, ang (Rot.neg ρ) = -ang ρ) (s : LocalBuilder) (r : Reg) (L : List ℕ) (h2 : 2 ≤ r.length)
    (ho : Own s (r ++ L)) :
    Does ang (Arith.lshift [r]) s [r] (r ++ L) (fun x => ket (rotate (r.length - 1) r x)) ∧
    Does ang (Arith.rshift [r] >>= Arith.lshift) s [r] (r ++ L) ket ∧
    Does ang (Arith.lshift [r] >>= Arith.rshift) s [r] (r ++ L) ket := by
  have hn : r.Nodup := (List.nodup_append.mp ho.left).1
  have hr : r ≠ [] := by rintro rfl; simp at h2
  have h1 := Maps.rshift (ang := ang) (β := LocalBuilder) [] r hr
  have hl := Maps.lshift hang r h2
  refine ⟨(hl.does s L rfl ho).congrU fun x _ => by simp, ?_, ?_⟩
  · refine ((h1.bind hl).does s L rfl ho).congrU fun x _ => ?_
    rw [(rotate_rotate r hn h2 x).2, ite_self]
  · refine ((hl.bind h1).does s L rfl ho).congrU fun x _ => ?_
    rw [(rotate_rotate r hn h2 x).1, ite_self]

/-- `lshift` of one qubit panics: `rshift` of one qubit is an empty circuit, and inverting an empty circuit panics. -/
theorem C47_lshift_one (s : LocalBuilder) (q : ℕ) : (Arith.lshift [[q]] : M LocalBuilder _) s = .error .panic s := by
  have hb : buildSub ([[q]].map List.length) Arith.rshift = .ok [] := rfl
  unfold Arith.lshift invertFn
  rw [hb, liftE_ok, pure_bind, mergeRegisters_ne _ (by simp) (by simp), pure_bind, unwrapO_some, pure_bind]
  refine bind_err (β := LocalBuilder) ?_
  unfold applyInverted
  rw [show invertSub [] = .ok [] from rfl, liftE_ok, pure_bind]
  exact C40_panics s [] _ (by simp) (by simp) (by simp)

theorem C47_refuted : ¬ C47_claim := by
  intro h
  obtain ⟨s', h1, -⟩ := h rotAngle rotAngle_neg two [0] [1] (by simp) two_own
  obtain ⟨s1, h2, -⟩ := (Maps.rshift (ang := rotAngle) (β := LocalBuilder) [] [0] (by simp)).does two [1] rfl two_own
  rw [bind_ok h2, C47_lshift_one] at h1
  exact absurd h1 (by simp)

example (ang : Rot → ℝ) : Does ang (under [[0]] (Arith.rshift [[1, 2, 3]])) fiveQubits ([[1, 2, 3]], [[0]]) ([0] ++ [1, 2, 3] ++ [])
    (fun x => ket (if ∀ c ∈ ([[0]] : List Reg).flatten, x c = true then rotate 1 [1, 2, 3] x else x)) :=
  C47_rshift fiveQubits [[0]] [1, 2, 3] [] (by simp) (by simp) ⟨by simp [fiveQubits], by decide, by decide⟩

example (x : Asg) : rotate 1 [1, 2, 3] x 1 = x 3 := (C47_moves [1, 2, 3] (by simp) (by decide) x).1 2 (by decide)
example : valQ [1, 2, 3] (rotate 1 [1, 2, 3] fun q => decide (q ≤ 1 ∨ q = 3)) = 3 := by
  rw [C47_doubles [1, 2, 3] (by simp) (by decide)]; simp [valQ]
example : valQ [1, 2, 3] (rotate 1 [1, 2, 3] fun q => decide (q ≤ 2)) = 6 := by
  rw [C47_doubles_low [1, 2, 3] (by simp) (by decide) _ (by simp)]; simp [valQ]
example := C47_lshift_partial rotAngle_neg fiveQubits [1, 2, 3] [0] (by simp) ⟨by simp [fiveQubits], by decide, by decide⟩
example := C47_lshift_one two 0

/-! ## C48 -/

/-- `copy` under any conditions: `b` gets the bitwise exclusive or of `a` and `b`, nothing else changes -/
theorem C48_copy (s : LocalBuilder) (crs : List Reg) (a b : Reg) (L : List ℕ) (hc : ∀ c ∈ crs, c ≠ []) (ha : a ≠ [])
    (hl : a.length = b.length) (ho : Own s (crs.flatten ++ (a ++ b) ++ L)) :
    ∃ φ : Asg → Asg,
      Does ang (under crs (Arith.copy [a, b])) s ([a, b], crs) (crs.flatten ++ (a ++ b) ++ L)
        (fun x => ket (if ∀ c ∈ crs.flatten, x c = true then φ x else x)) ∧
      ∀ x, valQ b (φ x) = valQ a x ^^^ valQ b x ∧ ∀ q, q ∉ b → φ x q = x q := by
  have hn : (a ++ b).Nodup := (List.nodup_append.mp (List.nodup_append.mp ho.left).1).2.1
  refine ⟨copyMap a b, (Maps.copy crs a b ha hl).under hc s L ho, fun x => ⟨?_, fun q hq => copyMap_keeps a b x q hq⟩⟩
  apply Nat.eq_of_testBit_eq
  intro i
  rw [Nat.testBit_xor, testBit_valQ, testBit_valQ, testBit_valQ]
  by_cases hi : i < b.length
  · have h := copyMap_at a b hn hl x i hi
    rw [List.getD_eq_getElem _ _ hi, List.getD_eq_getElem _ _ (by omega)] at h
    rw [dif_pos hi, dif_pos (by omega), dif_pos hi, h, Bool.xor_comm]
  · rw [dif_neg hi, dif_neg (by omega), dif_neg hi]; rfl

/-- `copy` is its own inverse, under any conditions -/
theorem C48_self_inverse (s : LocalBuilder) (crs : List Reg) (a b : Reg) (L : List ℕ) (hc : ∀ c ∈ crs, c ≠ []) (ha : a ≠ [])
    (hl : a.length = b.length) (ho : Own s (crs.flatten ++ (a ++ b) ++ L)) :
    Does ang (under crs (Arith.copy [a, b] >>= Arith.copy)) s ([a, b], crs) (crs.flatten ++ (a ++ b) ++ L) ket := by
  have hn : (a ++ b).Nodup := (List.nodup_append.mp (List.nodup_append.mp ho.left).1).2.1
  have h := Maps.copy (ang := ang) (β := NB crs.length) crs a b ha hl
  refine ((h.bind h).under hc s L ho).congrU fun x _ => ?_
  rw [copyMap_copyMap a b hn hl, ite_self]

/-- the generated `copy_inv` is the inverse of `copy` as well -/
theorem C48_copy_inv (hang : ∀ ρ, ang (Rot.neg ρ) = -ang ρ) (s : LocalBuilder) (a b : Reg) (L : List ℕ) (ha : a ≠ [])
    (hl : a.length = b.length) (ho : Own s ((a ++ b) ++ L)) :
    Does ang (Arith.copy [a, b] >>= Arith.copyInv) s [a, b] ((a ++ b) ++ L) ket ∧
    Does ang (Arith.copyInv [a, b] >>= Arith.copy) s [a, b] ((a ++ b) ++ L) ket := by
  have hn : (a ++ b).Nodup := (List.nodup_append.mp ho.left).1
  have h1 := Maps.copy (ang := ang) (β := LocalBuilder) [] a b ha hl
  have h2 := Maps.copyInv hang a b ha hl
  constructor
  · refine ((h1.bind h2).does s L rfl ho).congrU fun x _ => ?_
    rw [copyMap_copyMap a b hn hl, ite_self]
  · refine ((h2.bind h1).does s L rfl ho).congrU fun x _ => ?_
    rw [copyMap_copyMap a b hn hl, ite_self]

/-- unequal sizes are an error, and nothing is added to the circuit -/
theorem C48_sizes {k : ℕ} (s : NB k) (a b : Reg) (h : a.length ≠ b.length) : Arith.copy [a, b] s = .error .error s := by
  rw [Arith.copy, if_pos h]
  rfl

example := C48_copy (ang := rotAngle) sevenQubits [[6]] [0, 1] [2, 3] [] (by simp) (by simp) rfl
  ⟨by simp [sevenQubits], by decide, by decide⟩
example := C48_self_inverse (ang := rotAngle) sevenQubits [[6]] [0, 1] [2, 3] [] (by simp) (by simp) rfl
  ⟨by simp [sevenQubits], by decide, by decide⟩
example := C48_copy_inv rotAngle_neg fiveQubits [0, 1] [2, 3] [] (by simp) rfl ⟨by simp [fiveQubits], by decide, by decide⟩
example : Arith.copy [[0, 1], [2]] (fiveQubits : NB 0) = .error .error fiveQubits := C48_sizes (k := 0) fiveQubits [0, 1] [2] (by simp)

end Verif.Props
