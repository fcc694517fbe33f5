import Verif.Proofs.Uses7

/-!
# Property C92: how many circuit elements and qubits the circuits take

`Costs m b a P t` (Spec/Counts.lean): the call `m` on the builder `b` returns `a`, appends elements of the kinds `P`, and makes the builder just
large enough for `t` temporary qubits at once beside the qubits in use. `inUse b` counts the qubits that are not in the pool of returned
temporaries. `tofN c t` are the elements of X gates on `t` qubits with `c` controls, `Circ.elements` and `Circ.temps` the elements and temporaries of
the arithmetic circuits, as functions of the sizes of the registers and of the number of control qubits.
-/

namespace Verif.Props
open Classical RegOps CircuitBuilder Rooted

/-! ## Toffoli gates -/

/-- A Toffoli gate with any number of controls and targets: exact numbers of elements of each kind, and two fewer temporaries than controls. -/
theorem C92_toffoli (s : LocalBuilder) (cr r L : List ℕ) (hc : cr ≠ []) (hr : r ≠ []) (ho : Own s (cr ++ r ++ L)) :
    Costs (toffoli cr r) s (cr, r) (tofN cr.length r.length) (cr.length - 2) :=
  (toffoli_uses cr r L s hc hr ho).costs

/-- the number of all elements with `c + 2` controls and `t` targets, and that of the T gates; with one control or none -/
theorem C92_toffoli_total (c t : ℕ) : (tofN (c + 2) t).total = 42 * c + 14 * t + 7 ∧ tofN (c + 2) t .t = 14 * c + 4 * t + 3 ∧
    (tofN 1 t).total = t ∧ (tofN 0 t).total = t := by
  refine ⟨?_, ?_, ?_, ?_⟩
  · show ((2 * c) • tof2 1 + tof2 t).total = _
    unfold Profile.total
    rw [sum_kind]
    simp [tof2]
    ring
  · show ((2 * c) • tof2 1 + tof2 t) .t = _
    simp [tof2]
    ring
  · show (t • one .cnot).total = _
    unfold Profile.total
    rw [sum_kind]
    simp [one]
  · show (t • one .x).total = _
    unfold Profile.total
    rw [sum_kind]
    simp [one]

/-- four controls on an empty builder of five qubits: two temporaries -/
example : Costs (toffoli [0, 1, 2, 3] [4]) (⟨[], 5, [], 0⟩ : LocalBuilder) ([0, 1, 2, 3], [4]) (tofN 4 1) 2 :=
  C92_toffoli ⟨[], 5, [], 0⟩ [0, 1, 2, 3] [4] [] (by simp) (by simp) ⟨by simp, by decide, by decide⟩

/-- 105 elements, 35 of them T gates -/
example : (tofN 4 1).total = 105 ∧ tofN 4 1 .t = 35 := ⟨by rw [(C92_toffoli_total 2 1).1], by rw [(C92_toffoli_total 2 1).2.1]⟩

/-! ## the arithmetic circuits -/

/-- `sum` and `carry` under any conditions -/
theorem C92_sum (s : LocalBuilder) (crs : List Reg) (c a b : ℕ) (L : List ℕ) (hc : ∀ c ∈ crs, c ≠ []) (ho : Own s (crs.flatten ++ [c, a, b] ++ L)) :
    Costs (under crs (Arith.sum [[c], [a], [b]])) s ([[c], [a], [b]], crs) (2 • tofN (crs.flatten.length + 1) 1) (crs.flatten.length - 1) :=
  ((Takes.sum rfl c a b).under hc s L ho).costs

theorem C92_carry (s : LocalBuilder) (crs : List Reg) (c a b d : ℕ) (L : List ℕ) (hc : ∀ c ∈ crs, c ≠ []) (ho : Own s (crs.flatten ++ [c, a, b, d] ++ L)) :
    Costs (under crs (Arith.carry [[c], [a], [b], [d]])) s ([[c], [a], [b], [d]], crs)
      (2 • tofN (crs.flatten.length + 2) 1 + 2 • tofN (crs.flatten.length + 1) 1) crs.flatten.length :=
  ((Takes.carry rfl c a b d).under hc s L ho).costs

/-- Every arithmetic circuit that is not built by inversion, with registers of fitting sizes, at once or inside any conditions: the exact numbers of
elements and qubits. -/
theorem C92_circuits (s : LocalBuilder) (crs : List Reg) (c : Circ) (rs : List Reg) (L : List ℕ) (hc : ∀ c ∈ crs, c ≠ []) (hr : ∀ r ∈ rs, r ≠ [])
    (hf : c.Fits (rs.map List.length)) (hi : ¬ c.isInverse) (ho : Own s (crs.flatten ++ rs.flatten ++ L)) :
    Costs (under crs (c.run rs)) s (rs, crs) (c.elements (rs.map List.length) crs.flatten.length) (c.temps (rs.map List.length) crs.flatten.length) := by
  obtain ⟨lo, h1, h2⟩ := circ_takes (β := NB crs.length) (cs := crs) rfl c rs hr hf
  have h3 := h1.under hc s L ho
  rw [h2 hi] at h3
  exact h3.costs

/-- ... and every one: the exact numbers of elements, and no more qubits than stated. -/
theorem C92_all (s : LocalBuilder) (crs : List Reg) (c : Circ) (rs : List Reg) (L : List ℕ) (hc : ∀ c ∈ crs, c ≠ []) (hr : ∀ r ∈ rs, r ≠ [])
    (hf : c.Fits (rs.map List.length)) (ho : Own s (crs.flatten ++ rs.flatten ++ L)) :
    CostsAtMost (under crs (c.run rs)) s (rs, crs) (c.elements (rs.map List.length) crs.flatten.length) (c.temps (rs.map List.length) crs.flatten.length) := by
  obtain ⟨lo, h1, -⟩ := circ_takes (β := NB crs.length) (cs := crs) rfl c rs hr hf
  exact (h1.under hc s L ho).atMost

/-- Called a second time on what it returned, a circuit adds no qubits: the temporaries are used again. -/
theorem C92_again (s : LocalBuilder) (crs : List Reg) (c : Circ) (rs : List Reg) (L : List ℕ) (hc : ∀ c ∈ crs, c ≠ []) (hr : ∀ r ∈ rs, r ≠ [])
    (hf : c.Fits (rs.map List.length)) (hi : ¬ c.isInverse) (ho : Own s (crs.flatten ++ rs.flatten ++ L)) :
    ∃ s' s'', under crs (c.run rs) s = .ok (rs, crs) s' ∧ under crs (c.run rs) s' = .ok (rs, crs) s'' ∧ s''.n = s'.n ∧
      ∃ seg seg', s''.pipeline = s.pipeline ++ seg ++ seg' ∧ prof seg' = prof seg := by
  obtain ⟨lo, h1, h2⟩ := circ_takes (β := NB crs.length) (cs := crs) rfl c rs hr hf
  have h3 := h1.under hc s L ho
  obtain ⟨s', e1, -, e3, ⟨seg, e4, e5⟩, e6, e7, e8⟩ := h3
  obtain ⟨s'', seg', k1, k2, k3, k4, k5⟩ := C92_circuits s' crs c rs L hc hr hf hi e3
  have ei : inUse s' = inUse s := e6
  have en : max s.n (inUse s + lo) ≤ s'.n := e7
  rw [h2 hi] at en
  refine ⟨s', s'', e1, k1, ?_, seg, seg', ?_, ?_⟩
  · rw [k5, ei]
    omega
  · have : s'.pipeline = s.pipeline ++ seg := e4
    rw [k2, this]
  · rw [k3, e5]

/-- a 1-qubit adder on an empty builder -/
example : Costs (under [] (Circ.add.run [[0], [1], [2, 3]])) (⟨[], 4, [], 0⟩ : LocalBuilder) ([[0], [1], [2, 3]], []) (Count.add 1 0) 0 :=
  C92_circuits ⟨[], 4, [], 0⟩ [] .add [[0], [1], [2, 3]] [] (by simp) (by simp) ⟨rfl, rfl⟩ (by simp [Circ.isInverse]) ⟨by simp, by decide, by decide⟩

/-- `times_mod` inside two conditions, with one qubit in the pool: 2 + 2 + 2 + 3 + 2 - 1 new qubits -/
example : ∃ b' seg, under [[8], [9]] (Circ.timesMod.run [[0, 1], [2, 3], [4], [5, 6]]) (⟨[], 10, [[7]], 0⟩ : LocalBuilder) =
    .ok ([[0, 1], [2, 3], [4], [5, 6]], [[8], [9]]) b' ∧ b'.pipeline = [] ++ seg ∧ prof seg = Count.timesMod 1 2 2 ∧ inUse b' = 9 ∧ b'.n = 18 := by
  obtain ⟨b', seg, h1, h2, h3, h4, h5⟩ := C92_circuits ⟨[], 10, [[7]], 0⟩ [[8], [9]] .timesMod [[0, 1], [2, 3], [4], [5, 6]] [] (by simp) (by simp) ⟨rfl, rfl⟩
    (by simp [Circ.isInverse]) ⟨by simp, by decide, by decide⟩
  exact ⟨b', seg, h1, h2, h3, h4, h5⟩

/-- `exp_mod_inv` -/
example : CostsAtMost (under [] (Circ.expModInv.run [[0, 1], [2, 3], [4], [5, 6], [7, 8]])) (⟨[], 9, [], 0⟩ : LocalBuilder)
    ([[0, 1], [2, 3], [4], [5, 6], [7, 8]], []) (Count.inv (Count.expMod 1 2 0) 0) 12 :=
  C92_all ⟨[], 9, [], 0⟩ [] .expModInv [[0, 1], [2, 3], [4], [5, 6], [7, 8]] [] (by simp) (by simp) ⟨rfl, rfl, rfl⟩ ⟨by simp, by decide, by decide⟩

example := C92_again ⟨[], 7, [], 0⟩ [] .addMod [[0, 1], [2, 3, 4], [5, 6]] [] (by simp) (by simp) ⟨rfl, rfl⟩ (by simp [Circ.isInverse]) ⟨by simp, by decide, by decide⟩

example := C92_sum ⟨[], 5, [], 0⟩ [[3], [4]] 0 1 2 [] (by simp) ⟨by simp, by decide, by decide⟩
example := C92_carry ⟨[], 5, [], 0⟩ [[4]] 0 1 2 3 [] (by simp) ⟨by simp, by decide, by decide⟩

/-! ## closed formulas, without conditions -/

/-- the numbers of all elements -/
theorem C92_totals (n k : ℕ) :
    (Count.add (n + 1) 0).total = 124 * n + 46 ∧
    (Count.addMod (n + 1) 0).total = 2756 * n + 466 ∧
    (Count.timesMod (n + 1) k 0).total = k * (26570 * n + 7054) ∧
    (Count.squareMod (n + 1) 0).total = 26570 * n ^ 2 + 33626 * n + 7056 ∧
    (Count.expMod (n + 1) (k + 1) 0).total = k * (1284948 * n ^ 2 + 2839856 * n + 667668) + (80902 * n ^ 2 + 184567 * n + 45528) := by
  refine ⟨?_, ?_, ?_, ?_, ?_⟩
  · rw [add0_vec, total_vec]; ring
  · rw [addMod0_vec, total_vec]; ring
  · rw [timesMod0_vec, total_vec]; ring
  · rw [squareMod0_vec, total_vec]; ring
  · rw [Count.expMod, expStep0_vec, expLast0_vec, vec_smul, vec_add, total_vec, Nat.add_sub_cancel]; ring

/-- the numbers of T gates -/
theorem C92_t_count (n k : ℕ) :
    Count.add (n + 1) 0 .t = 28 * n + 14 ∧
    Count.addMod (n + 1) 0 .t = 770 * n + 126 ∧
    Count.timesMod (n + 1) k 0 .t = k * (8288 * n + 2212) ∧
    Count.squareMod (n + 1) 0 .t = 8288 * n ^ 2 + 10500 * n + 2212 ∧
    Count.expMod (n + 1) (k + 1) 0 .t = k * (391384 * n ^ 2 + 871066 * n + 205324) + (26418 * n ^ 2 + 60291 * n + 14910) := by
  refine ⟨?_, ?_, ?_, ?_, ?_⟩
  · rw [add0_vec]; rfl
  · rw [addMod0_vec]; rfl
  · rw [timesMod0_vec]; rfl
  · rw [squareMod0_vec]; rfl
  · rw [Count.expMod, expStep0_vec, expLast0_vec, vec_smul, vec_add, Nat.add_sub_cancel]; rfl

/-- `exp_mod` takes elements quadratic in the size of the modulus and linear in that of the exponent, and qubits linear in their product -/
theorem C92_growth (n k : ℕ) (hn : 1 ≤ n) (hk : 1 ≤ k) : (Count.expMod n k 0).total ≤ 4792472 * k * n ^ 2 ∧ Count.expTemps n k 0 ≤ 8 * k * n := by
  obtain ⟨m, rfl⟩ : ∃ m, n = m + 1 := ⟨n - 1, by omega⟩
  obtain ⟨j, rfl⟩ : ∃ j, k = j + 1 := ⟨k - 1, by omega⟩
  constructor
  · rw [(C92_totals m j).2.2.2.2]
    have : j * (1284948 * m ^ 2 + 2839856 * m + 667668) ≤ j * (4792472 * (m + 1) ^ 2) := Nat.mul_le_mul_left j (by nlinarith)
    nlinarith
  · unfold Count.expTemps
    split
    · obtain rfl : j = 0 := by omega
      omega
    · have h1 : 1 ≤ j := by omega
      rw [Nat.add_sub_cancel]
      have : max (3 * (m + 1) + 5) (4 * (m + 1) + 3) ≤ 5 * m + 8 := by omega
      nlinarith

/-- two qubits modulus, three qubits exponent -/
example : (Count.expMod 2 3 0).total = 9895941 ∧ Count.expTemps 2 3 0 = 23 := ⟨by rw [(C92_totals 1 2).2.2.2.2]; norm_num, rfl⟩

/-! ## `qfft` -/

/-- `qfft` at once or inside any conditions: the exact numbers of elements and qubits -/
theorem C92_qfft (s : LocalBuilder) (crs : List Reg) (r : Reg) (L : List ℕ) (hc : ∀ c ∈ crs, c ≠ []) (hr : r ≠ [])
    (ho : Own s (crs.flatten ++ r ++ L)) :
    Costs (under crs (qfft r)) s (r, crs) (Count.qfft r.length crs.flatten.length) (Count.qfftTemps r.length crs.flatten.length) :=
  ((Takes.qfft r hr crs.length crs).under hc s L ho).costs

/-- outside conditions: one H gate per qubit, one rotation per pair of qubits, three CNOT gates per pair that changes places, and no temporaries;
inside conditions every H gate takes two rotations more, and the others stay what they are outside -/
theorem C92_qfft_total (n c : ℕ) :
    Count.qfft n 0 = n • one .h + (n * (n - 1) / 2) • one .rz + (3 * (n / 2)) • one .cnot ∧
    (Count.qfft n 0).total = n + n * (n - 1) / 2 + 3 * (n / 2) ∧ Count.qfftTemps n 0 = 0 ∧
    Count.qfft n (c + 1) .rz = 2 * n + n * (n - 1) / 2 ∧
    (Count.qfft n 1).total = 13 * n + n * (n - 1) / 2 + 63 * (n / 2) := by
  have h0 : Count.qfft n 0 = n • one .h + (n * (n - 1) / 2) • one .rz + (3 * (n / 2)) • one .cnot := by
    unfold Count.qfft
    simp [condK, tofN]
  refine ⟨h0, ?_, by unfold Count.qfftTemps; split <;> rfl, ?_, ?_⟩
  · rw [h0]
    unfold Profile.total
    rw [sum_kind]
    simp [one]
    omega
  · cases c <;> simp [Count.qfft, condK, tofN, tof2, one] <;> omega
  · unfold Profile.total
    rw [sum_kind]
    simp [Count.qfft, condK, tofN, tof2, one]
    omega

/-- two qubits inside a condition of one qubit: 26 elements of the H gates, the rotation, and three Toffoli gates -/
example : Costs (under [[2]] (qfft [0, 1])) ⟨[], 3, [], 0⟩ ([0, 1], [[2]]) (Count.qfft 2 1) 0 :=
  C92_qfft ⟨[], 3, [], 0⟩ [[2]] [0, 1] [] (by simp) (by simp) ⟨by simp, by simp, by simp⟩

example : (Count.qfft 2 1).total = 90 := (C92_qfft_total 2 0).2.2.2.2

end Verif.Props
