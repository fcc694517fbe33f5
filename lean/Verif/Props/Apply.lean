import Verif.Props.Bits
import Verif.Proofs.Apply2
import Verif.Proofs.Schedule
import Verif.Spec.Schedule
import Mathlib.Algebra.BigOperators.Fin

/-!
# C10–C15: applying ops to state vectors

`embed n idx M` (Spec/Matrix.lean) is the `2^n × 2^n` matrix that acts as `M` on the qubits `idx` and as the
identity elsewhere; `opMat op` is the op's own matrix; `ampAt v off c` is the amplitude of basis state `c` in a
vector stored from index `off` on.
-/

namespace Verif.Props
open Verif Finset MatrixOp

variable {K : Type} [Semiring K] [DecidableEq K]

/-! ## C10 -/

/-- C10. `apply_op_overwrite` never panics on a well-formed op over distinct qubits below `n`; it keeps the length
of the output and every entry is the corresponding entry of (embedded matrix) · (input). The old contents of the
output do not matter. -/
theorem C10_apply_op_overwrite (n : ℕ) (op : MatrixOp K) (hwf : op.WF) (hnd : op.indices.Nodup)
    (hidx : ∀ i ∈ op.indices, i < n) (input output : List K) (io oo : ℕ) (hlen : oo + output.length ≤ 2 ^ n) :
    ∃ out, applyOpOverwrite n op input output io oo = some out ∧ out.length = output.length ∧
      ∀ r, r < output.length →
        out[r]? = some (∑ c ∈ range (2 ^ n), embed n op.indices (opMat op) (oo + r) c * ampAt input io c) := by
  refine ⟨_, applyOpOverwrite_eq n op hwf hidx input output io oo, by simp, ?_⟩
  intro r hr
  rw [← rowVal_embed n op hnd hidx input io (oo + r) (by omega)]
  simp [hr]

/-- C10, undivided state: `output := embed · input` with both vectors of length `2^n`. -/
theorem C10_apply_op_overwrite_full (n : ℕ) (op : MatrixOp K) (hwf : op.WF) (hnd : op.indices.Nodup)
    (hidx : ∀ i ∈ op.indices, i < n) (input output : List K) (hi : input.length = 2 ^ n)
    (ho : output.length = 2 ^ n) :
    applyOpOverwrite n op input output 0 0 = some ((List.range (2 ^ n)).map fun r =>
      ∑ c : Fin (2 ^ n), embed n op.indices (opMat op) r c * input[c]) := by
  obtain ⟨out, h1, h2, h3⟩ := C10_apply_op_overwrite n op hwf hnd hidx input output 0 0 (by omega)
  rw [h1]
  congr 1
  apply List.ext_getElem?
  intro r
  by_cases hr : r < 2 ^ n
  · rw [h3 r (by omega), Nat.zero_add, Finset.sum_range]
    simp only [List.getElem?_map, List.getElem?_range hr, Option.map_some]
    congr 1
    apply sum_congr rfl
    intro c _
    rw [ampAt_zero_offset _ _ (by omega)]
    rfl
  · rw [List.getElem?_eq_none (by omega), List.getElem?_eq_none (by simp; omega)]

/-- instance: a controlled-`[[0,3],[5,0]]` on qubits (control 2, target 0) of three qubits -/
example : (newControl [2] [0] (.matrix [0] ([0, 3, 5, 0] : List ℤ))).WF ∧
    (newControl [2] [0] (.matrix [0] ([0, 3, 5, 0] : List ℤ))).indices.Nodup ∧
    ∀ i ∈ (newControl [2] [0] (.matrix [0] ([0, 3, 5, 0] : List ℤ))).indices, i < 3 := by
  simp [newControl, MatrixOp.WF, indices]

/-! ## C11 -/

/-- C11. `apply_op` adds to each output entry exactly the entry of (embedded matrix) · (input). -/
theorem C11_apply_op_accumulates (n : ℕ) (op : MatrixOp K) (hwf : op.WF) (hnd : op.indices.Nodup)
    (hidx : ∀ i ∈ op.indices, i < n) (input output : List K) (io oo : ℕ) (hlen : oo + output.length ≤ 2 ^ n) :
    ∃ out, applyOp n op input output io oo = some out ∧ out.length = output.length ∧
      ∀ r (hr : r < output.length), out[r]? = some (output[r] +
        ∑ c ∈ range (2 ^ n), embed n op.indices (opMat op) (oo + r) c * ampAt input io c) := by
  refine ⟨_, applyOp_eq n op hwf hidx input output io oo, by simp, ?_⟩
  intro r hr
  rw [← rowVal_embed n op hnd hidx input io (oo + r) (by omega)]
  simp [hr]

/-- C11. `apply_op` adds what `apply_op_overwrite` writes, whatever buffer the latter is given, and `apply_op_row`
returns that same number. -/
theorem C11_add_equals_overwrite (n : ℕ) (op : MatrixOp K) (hwf : op.WF)
    (hidx : ∀ i ∈ op.indices, i < n) (input output buffer : List K) (io oo : ℕ)
    (hb : buffer.length = output.length) :
    ∃ w, applyOpOverwrite n op input buffer io oo = some w ∧ w.length = output.length ∧
      applyOp n op input output io oo = some (List.zipWith (· + ·) output w) ∧
      ∀ r (hr : r < w.length), applyOpRow n op input r io oo = some w[r] := by
  refine ⟨_, applyOpOverwrite_eq n op hwf hidx input buffer io oo, by simp [hb], ?_, ?_⟩
  · rw [applyOp_eq n op hwf hidx]
    congr 1
    apply List.ext_getElem
    · simp [hb]
    · intro i h1 h2
      simp
  · intro r hr
    simp only [applyOpRow, matIndices_eq op hwf, Option.bind_eq_bind, Option.bind_some,
      applyOpRowIndices_eq n op hwf hidx]
    simp [rowVal]

/-- instance: on |1⟩ of one qubit, `[[0,3],[5,0]]` adds 3 to the first entry -/
example : ∃ out, applyOp 1 (.matrix [0] ([0, 3, 5, 0] : List ℤ)) [0, 1] [10, 20] 0 0 = some out ∧ out.length = 2 := by
  obtain ⟨out, h, hl, _⟩ := C11_apply_op_accumulates 1 (.matrix [0] ([0, 3, 5, 0] : List ℤ)) (by simp [MatrixOp.WF])
    (by simp [indices]) (by simp [indices]) [0, 1] [10, 20] 0 0 (by simp)
  exact ⟨out, h, hl⟩

/-! ## C12 -/

/-- C12, cutting the input. Accumulating the consecutive chunks of the input one after another, each with its own
offset, gives the same output as one call on the whole input. -/
theorem C12_chunked_input (n : ℕ) (op : MatrixOp K) (hwf : op.WF) (hidx : ∀ i ∈ op.indices, i < n)
    (chunks : List (List K)) (output : List K) (io oo : ℕ) :
    (chunks.foldlM (fun (s : List K × ℕ) chunk => do
        let o ← applyOp n op chunk s.1 s.2 oo
        some (o, s.2 + chunk.length)) (output, io)).map Prod.fst =
      applyOp n op chunks.flatten output io oo := by
  induction chunks generalizing output io with
  | nil =>
    rw [applyOp_eq n op hwf hidx]
    simp [rowVal_nil]
  | cons a l ih =>
    rw [List.foldlM_cons, applyOp_eq n op hwf hidx]
    simp only [Option.bind_eq_bind, Option.bind_some] at ih ⊢
    rw [ih, applyOp_eq n op hwf hidx, applyOp_eq n op hwf hidx]
    congr 1
    apply List.ext_getElem
    · simp
    · intro i h1 h2
      simp [rowVal_append, add_assoc]

/-- C12, cutting the output. Computing the consecutive chunks of the output separately, each with its own output
offset, and concatenating gives the same output as one call (for both `apply_op` and `apply_op_overwrite`). -/
theorem C12_chunked_output (n : ℕ) (op : MatrixOp K) (hwf : op.WF) (hidx : ∀ i ∈ op.indices, i < n)
    (input o1 o2 : List K) (io oo : ℕ) :
    ∃ a1 a2 w1 w2, applyOp n op input o1 io oo = some a1 ∧ applyOp n op input o2 io (oo + o1.length) = some a2 ∧
      applyOp n op input (o1 ++ o2) io oo = some (a1 ++ a2) ∧
      applyOpOverwrite n op input o1 io oo = some w1 ∧
      applyOpOverwrite n op input o2 io (oo + o1.length) = some w2 ∧
      applyOpOverwrite n op input (o1 ++ o2) io oo = some (w1 ++ w2) := by
  refine ⟨_, _, _, _, applyOp_eq n op hwf hidx .., applyOp_eq n op hwf hidx .., ?_,
    applyOpOverwrite_eq n op hwf hidx .., applyOpOverwrite_eq n op hwf hidx .., ?_⟩
  · rw [applyOp_eq n op hwf hidx]
    congr 1
    rw [List.zipIdx_append, List.map_append]
    congr 1
    apply List.ext_getElem
    · simp
    · intro i h1 h2
      simp [Nat.add_assoc]
  · rw [applyOpOverwrite_eq n op hwf hidx]
    congr 1
    rw [List.zipIdx_append, List.map_append]
    congr 1
    apply List.ext_getElem
    · simp
    · intro i h1 h2
      simp [Nat.add_assoc]

/-- instance: a two-qubit state cut into chunks of 1 and 3 entries -/
example (x : List ℤ) (hx : x.length = 4) :
    (([x.take 1, x.drop 1] : List (List ℤ)).foldlM (fun (s : List ℤ × ℕ) chunk => do
        let o ← applyOp 2 (.swap 1 [0, 1]) chunk s.1 s.2 0
        some (o, s.2 + chunk.length)) ([0, 0, 0, 0], 0)).map Prod.fst =
      applyOp 2 (.swap 1 [0, 1]) x [0, 0, 0, 0] 0 0 := by
  rw [C12_chunked_input 2 _ (by simp [MatrixOp.WF]) (by simp [indices])]
  rw [List.flatten_cons, List.flatten_cons, List.flatten_nil, List.append_nil, List.take_append_drop]

/-! ## C13 -/

/-- C13. Whatever the interleaving of the row tasks, the parallel loop of `apply_op` computes the same vector as
the sequential one. -/
theorem C13_apply_op_any_schedule (n : ℕ) (op : MatrixOp K) (hwf : op.WF) (hidx : ∀ i ∈ op.indices, i < n)
    (input output : List K) (io oo : ℕ) (evs : List Ev) (h : IsSchedule output.length evs) :
    runSchedule (fun r cell => do
        let v ← applyOpRowIndices n op input r io oo op.indices
        some (cell + v)) evs output = applyOp n op input output io oo := by
  rw [runSchedule_eq output _ (fun r => (output[r]?).getD 0 + rowVal n op input io (oo + r)) _ evs h,
    applyOp_eq n op hwf hidx]
  · congr 1
    apply List.ext_getElem
    · simp
    · intro i h1 h2
      simp only [List.length_map, List.length_range] at h1
      simp [h1]
  · intro r hr
    rw [applyOpRowIndices_eq n op hwf hidx]
    simp [rowVal, hr]

/-- C13. The same for `apply_op_overwrite`. -/
theorem C13_apply_op_overwrite_any_schedule (n : ℕ) (op : MatrixOp K) (hwf : op.WF)
    (hidx : ∀ i ∈ op.indices, i < n)
    (input output : List K) (io oo : ℕ) (evs : List Ev) (h : IsSchedule output.length evs) :
    runSchedule (fun r _ => applyOpRowIndices n op input r io oo op.indices) evs output =
      applyOpOverwrite n op input output io oo := by
  rw [runSchedule_eq output _ (fun r => rowVal n op input io (oo + r)) _ evs h, applyOpOverwrite_eq n op hwf hidx]
  · congr 1
    apply List.ext_getElem
    · simp
    · intro i h1 h2
      simp
  · intro r hr
    rw [applyOpRowIndices_eq n op hwf hidx]
    simp [rowVal]

/-- instance: a schedule of two tasks in which both run at the same time and finish in the opposite order -/
example : IsSchedule 2 [.start 0, .start 1, .finish 1, .finish 0] := by
  constructor
  · decide
  · intro pre post r h
    match pre, h with
    | [a, b], h =>
      simp at h
      obtain ⟨rfl, rfl, rfl, _⟩ := h
      simp
    | [a, b, c], h =>
      simp at h
      obtain ⟨rfl, rfl, rfl, rfl, _⟩ := h
      simp
    | [a], h => simp at h
    | [], h => simp at h
    | a :: b :: c :: d :: l, h => simp at h

/-! ## C14 -/

/-- C14 (control). `Control` applies the inner op on the part of the state where all control qubits are 1 and
copies the rest. -/
theorem C14_control (n : ℕ) (C : List ℕ) (op : MatrixOp K) (hwf : op.WF) (hnd : (C ++ op.indices).Nodup)
    (hidx : ∀ i ∈ C ++ op.indices, i < n) (input output : List K) (hi : input.length = 2 ^ n)
    (ho : output.length = 2 ^ n) :
    ∃ w out, applyOpOverwrite n op input output 0 0 = some w ∧ w.length = 2 ^ n ∧
      applyOpOverwrite n (newControl C op.indices op) input output 0 0 = some out ∧ out.length = 2 ^ n ∧
      ∀ r, r < 2 ^ n →
        out[r]? = if ∀ q ∈ C, r.testBit (n - 1 - q) = true then w[r]? else input[r]? := by
  have hnd' : op.indices.Nodup := (List.nodup_append.mp hnd).2.1
  have hidx' : ∀ i ∈ op.indices, i < n := fun i h => hidx i (by simp [h])
  have hcwf : (newControl C op.indices op).WF := by simp [newControl, MatrixOp.WF, hwf]
  have hcidx : (newControl C op.indices op).indices = C ++ op.indices := by simp [newControl, indices]
  obtain ⟨w, h1, h2, h3⟩ := C10_apply_op_overwrite n op hwf hnd' hidx' input output 0 0 (by omega)
  obtain ⟨out, g1, g2, g3⟩ := C10_apply_op_overwrite n (newControl C op.indices op) hcwf
    (by rw [hcidx]; exact hnd) (by rw [hcidx]; exact hidx) input output 0 0 (by omega)
  refine ⟨w, out, h1, by omega, g1, by omega, ?_⟩
  intro r hr
  rw [g3 r (by omega), h3 r (by omega), hcidx, Nat.zero_add]
  split
  · rename_i hA
    congr 1
    apply sum_congr rfl
    intro c hc
    rw [embed_control n C op hnd hidx r c hr (mem_range.mp hc), if_pos hA]
  · rename_i hA
    rw [sum_eq_single r]
    · rw [embed_control n C op hnd hidx r r hr hr, if_neg hA, if_pos rfl, one_mul,
        ampAt_zero_offset _ _ (by omega), List.getElem?_eq_getElem (by omega)]
    · intro c hc hne
      rw [embed_control n C op hnd hidx r c hr (mem_range.mp hc), if_neg hA, if_neg (Ne.symm hne), zero_mul]
    · intro h; exact absurd (mem_range.mpr hr) h

/-- C14. A swap with a number of qubits other than twice its size is a panic, as is making one from registers of different sizes. -/
theorem C14_swap_malformed (n a : ℕ) (idx A B : List ℕ) (io oo row : ℕ) (h : idx.length ≠ a * 2) (hAB : A.length ≠ B.length) (v w : List K) :
    applyOp n (.swap a idx : MatrixOp K) v w io oo = none ∧ applyOpOverwrite n (.swap a idx : MatrixOp K) v w io oo = none ∧
    applyOpRow n (.swap a idx : MatrixOp K) v row io oo = none ∧ (newSwap A B : Option (MatrixOp K)) = none := by
  simp [applyOp, applyOpOverwrite, applyOpRow, matIndices, numIndices, h, newSwap, hAB]

example (v w : List ℤ) : applyOp 3 (.swap 1 [0, 1, 2] : MatrixOp ℤ) v w 0 0 = none :=
  (C14_swap_malformed 3 1 [0, 1, 2] [0] [1, 2] 0 0 0 (by decide) (by decide) v w).1

/-- C10. An op on a qubit that does not exist is a panic (if there is a row to compute). -/
theorem C10_out_of_range (n : ℕ) (op : MatrixOp K) (hwf : op.WF) (h : ∃ i ∈ op.indices, n ≤ i) (input : List K) (y : K) (ys : List K) (io oo : ℕ) :
    applyOpOverwrite n op input (y :: ys) io oo = none ∧ applyOp n op input (y :: ys) io oo = none := by
  have hm := matIndices_eq op hwf
  have hf : ∀ r, applyOpRowIndices n op input r io oo op.indices = none := fun r => by
    simp only [applyOpRowIndices, C03_panics n op.indices (oo + r) h, Option.bind_eq_bind, Option.bind_none]
  simp [applyOpOverwrite, applyOp, hm, hf]

example (y : ℤ) (v ys : List ℤ) : applyOp 2 (.matrix [0, 2] (List.replicate 16 1) : MatrixOp ℤ) v (y :: ys) 0 0 = none :=
  (C10_out_of_range 2 (.matrix [0, 2] (List.replicate 16 1) : MatrixOp ℤ) (by simp [MatrixOp.WF]) ⟨2, by simp [indices], le_refl _⟩ v y ys 0 0).2

/-- C14 (swap). For index groups `A` and `B` of equal size, entry `r` of the result is entry `c` of the input, where
`c` is `r` with the values of the qubits `A[j]` and `B[j]` exchanged for every `j`. -/
theorem C14_swap (n : ℕ) (A B : List ℕ) (hAB : A.length = B.length) (hnd : (A ++ B).Nodup)
    (hidx : ∀ i ∈ A ++ B, i < n) (input output : List K) (hi : input.length = 2 ^ n)
    (ho : output.length = 2 ^ n) :
    ∃ op out, newSwap A B = some op ∧ applyOpOverwrite n op input output 0 0 = some out ∧ out.length = 2 ^ n ∧
      ∀ r c, r < 2 ^ n → c < 2 ^ n →
        (∀ j (h : j < A.length), c.testBit (n - 1 - A[j]) = r.testBit (n - 1 - (B[j]'(by omega))) ∧
          c.testBit (n - 1 - (B[j]'(by omega))) = r.testBit (n - 1 - A[j])) →
        AgreeOff n (A ++ B) r c →
        out[r]? = input[c]? := by
  have hwf : (.swap A.length (A ++ B) : MatrixOp K).WF := by simp [MatrixOp.WF]; omega
  have hsi : (.swap A.length (A ++ B) : MatrixOp K).indices = A ++ B := by simp [indices]
  obtain ⟨out, g1, g2, g3⟩ := C10_apply_op_overwrite n (.swap A.length (A ++ B)) hwf
    (by rw [hsi]; exact hnd) (by rw [hsi]; exact hidx) input output 0 0 (by omega)
  refine ⟨.swap A.length (A ++ B), out, by simp [newSwap, hAB], g1, by omega, ?_⟩
  intro r c hr hc hsw hag
  rw [g3 r (by omega), hsi, Nat.zero_add]
  have hm : ∀ x y, opMat (.swap A.length (A ++ B) : MatrixOp K) (readQubits n (A ++ B) x) (readQubits n (A ++ B) y) =
      if ∀ j (h : j < A.length), y.testBit (n - 1 - A[j]) = x.testBit (n - 1 - (B[j]'(by omega))) ∧
          y.testBit (n - 1 - (B[j]'(by omega))) = x.testBit (n - 1 - A[j]) then 1 else 0 := by
    intro x y
    simp only [opMat, readQubits_eq]
    congr 1
    have hlo : ∀ z i, i < A.length → (f2s n (A ++ B) z).testBit i =
        z.testBit (n - 1 - ((B[A.length - 1 - i]?).getD 0)) := by
      intro z i hi'
      rw [testBit_f2s, dif_pos (by simp; omega), List.getElem_append_right (by simp; omega)]
      rw [List.getElem?_eq_getElem (by omega), Option.getD_some]
      congr 3
      simp; omega
    have hhi : ∀ z i, i < A.length → (f2s n (A ++ B) z).testBit (A.length + i) =
        z.testBit (n - 1 - ((A[A.length - 1 - i]?).getD 0)) := by
      intro z i hi'
      rw [testBit_f2s, dif_pos (by simp; omega), List.getElem_append_left (by simp; omega)]
      rw [List.getElem?_eq_getElem (by omega), Option.getD_some]
      congr 3
      simp; omega
    apply propext
    constructor
    · intro h j hj
      have := h (A.length - 1 - j) (by omega)
      have hj' : A.length - 1 - j < A.length := by omega
      rw [hlo x _ hj', hlo y _ hj', hhi x _ hj', hhi y _ hj'] at this
      rw [show A.length - 1 - (A.length - 1 - j) = j by omega] at this
      rw [List.getElem?_eq_getElem (by omega), List.getElem?_eq_getElem (by omega)] at this
      exact ⟨this.1.symm, this.2.symm⟩
    · intro h i hi'
      rw [hlo x _ hi', hlo y _ hi', hhi x _ hi', hhi y _ hi']
      have := h (A.length - 1 - i) (by omega)
      rw [List.getElem?_eq_getElem (by omega), List.getElem?_eq_getElem (by omega)]
      exact ⟨this.1.symm, this.2.symm⟩
  rw [sum_eq_single c]
  · unfold embed
    rw [if_pos hag, hm, if_pos hsw, one_mul, ampAt_zero_offset _ _ (by omega), List.getElem?_eq_getElem (by omega)]
  · intro c' hc' hne
    unfold embed
    split
    · rename_i hag'
      rw [hm, if_neg, zero_mul]
      intro h'
      apply hne
      apply Nat.eq_of_testBit_eq
      intro p
      by_cases hp : p < n
      · by_cases hq : (n - 1 - p) ∈ A ++ B
        · rw [List.mem_append] at hq
          rcases hq with hq | hq
          · obtain ⟨j, hj, hje⟩ := List.mem_iff_getElem.mp hq
            have e1 := (h' j hj).1
            have e2 := (hsw j hj).1
            rw [hje, show n - 1 - (n - 1 - p) = p by omega] at e1 e2
            rw [e1, e2]
          · obtain ⟨j, hj, hje⟩ := List.mem_iff_getElem.mp hq
            have e1 := (h' j (by omega)).2
            have e2 := (hsw j (by omega)).2
            rw [hje, show n - 1 - (n - 1 - p) = p by omega] at e1 e2
            rw [e1, e2]
        · have e1 := hag (n - 1 - p) (by omega) hq
          have e2 := hag' (n - 1 - p) (by omega) hq
          rw [show n - 1 - (n - 1 - p) = p by omega] at e1 e2
          rw [← e1, ← e2]
      · have : 2 ^ n ≤ 2 ^ p := Nat.pow_le_pow_right (by omega) (by omega)
        rw [Nat.testBit_lt_two_pow (lt_of_lt_of_le hc this),
          Nat.testBit_lt_two_pow (lt_of_lt_of_le (mem_range.mp hc') this)]
    · rw [zero_mul]
  · intro h; exact absurd (mem_range.mpr hc) h

/-- instance: swapping qubit 0 with qubit 2 of three: entry 0b100 of the result is entry 0b001 of the input -/
example (input output : List ℤ) (hi : input.length = 2 ^ 3) (ho : output.length = 2 ^ 3) :
    ∃ op out, newSwap [0] [2] = some op ∧ applyOpOverwrite 3 op input output 0 0 = some out ∧
      out[4]? = input[1]? := by
  obtain ⟨op, out, h0, h1, _, h3⟩ := C14_swap 3 [0] [2] rfl (by simp) (by simp) input output hi ho
  refine ⟨op, out, h0, h1, h3 4 1 (by omega) (by omega) ?_ ?_⟩
  · intro j hj
    have : j = 0 := by simpa using hj
    subst this
    exact ⟨by simp only [List.getElem_cons_zero]; decide, by simp only [List.getElem_cons_zero]; decide⟩
  · intro q hq hm
    have : q = 1 := by
      simp at hm; omega
    subst this
    decide

/-! ## C15 -/

/-- C15 (partial). Full statement: for every list of ops on disjoint qubits, `apply_ops` gives the same vector as
applying the ops one after another, i.e. the matrix `kron ops` on the concatenated qubits. What the code computes
for two or more ops is this: the matrix is a Kronecker product in which the *columns* are assembled first op first
but the *rows* are taken apart last op first (iterator_mapper.rs L13-26 against qubit_multi_iterator.rs L41-52).
Zero rows are excluded (a row without entries panics, see `C09_empty_panics`). -/
theorem C15_apply_ops_rows_reversed_partial (n : ℕ) (a b : MatrixOp K) (rest : List (MatrixOp K))
    (hwf : ∀ op ∈ a :: b :: rest, op.WF)
    (hne : ∀ op ∈ a :: b :: rest, ∀ r < 2 ^ op.indices.length, ∃ c < 2 ^ op.indices.length, opMat op r c ≠ 0)
    (hnd : ((a :: b :: rest).flatMap indices).Nodup)
    (hidx : ∀ i ∈ (a :: b :: rest).flatMap indices, i < n) (input output : List K) (io oo : ℕ)
    (hlen : oo + output.length ≤ 2 ^ n) :
    ∃ out, applyOps n (a :: b :: rest) input output io oo = some out ∧ out.length = output.length ∧
      ∀ r (hr : r < output.length), out[r]? = some (output[r] + ∑ c ∈ range (2 ^ n),
        embed n ((a :: b :: rest).flatMap indices) (kronRowsReversed (a :: b :: rest)) (oo + r) c *
          ampAt input io c) := by
  refine ⟨_, applyOps_many n a b rest hwf
    (fun op ho => noEmptyRow_of_ne op (hwf op ho) (hne op ho)) hnd hidx input output io oo hlen, by simp, ?_⟩
  intro r hr
  simp [hr]

/-- the identity on one qubit -/
def idOp (q : ℕ) : MatrixOp ℤ := .matrix [q] [1, 0, 0, 1]

theorem idOp_row_ne (q : ℕ) : ∀ r < 2 ^ (idOp q).indices.length, ∃ c < 2 ^ (idOp q).indices.length,
    opMat (idOp q) r c ≠ 0 := by
  intro r hr
  refine ⟨r, hr, ?_⟩
  simp only [idOp, indices, List.length_singleton] at hr
  have : r = 0 ∨ r = 1 := by omega
  rcases this with rfl | rfl <;> simp [idOp, opMat]

/-- C15, refuted. Two one-qubit identity ops on qubits 0 and 1 applied to |01⟩ give |10⟩; applied one after the
other they give |01⟩. -/
theorem C15_apply_ops_not_sequential :
    ∃ (ops : List (MatrixOp ℤ)) (input : List ℤ),
      (∀ op ∈ ops, op.WF) ∧ (ops.flatMap indices).Nodup ∧ (∀ i ∈ ops.flatMap indices, i < 2) ∧
      input.length = 2 ^ 2 ∧
      ∃ out seq, applyOps 2 ops input [0, 0, 0, 0] 0 0 = some out ∧
        ops.foldlM (fun v op => applyOpOverwrite 2 op v v 0 0) input = some seq ∧ out ≠ seq := by
  have hwf : ∀ op ∈ [idOp 0, idOp 1], op.WF := by simp [MatrixOp.WF, idOp]
  have hid : ∀ i ∈ [idOp 0, idOp 1].flatMap indices, i < 2 := by simp [indices, idOp]
  have hnd : ([idOp 0, idOp 1].flatMap indices).Nodup := by simp [indices, idOp]
  obtain ⟨out, h1, h2, h3⟩ := C15_apply_ops_rows_reversed_partial 2 (idOp 0) (idOp 1) [] hwf
    (by intro op ho; simp at ho; rcases ho with rfl | rfl <;> exact idOp_row_ne _) hnd hid [0, 1, 0, 0] [0, 0, 0, 0] 0 0 (by simp)
  have o1 : out[1]? = some 0 := by
    rw [h3 1 (by simp)]
    have hag : ∀ x y, AgreeOff 2 ([idOp 0, idOp 1].flatMap indices) x y := by
      intro x y q hq hm
      exfalso; apply hm; simp [idOp, indices]; omega
    have hk : kronRowsReversed [idOp 0, idOp 1] (readQubits 2 [0, 1] 1) (readQubits 2 [0, 1] 1) = 0 := by decide
    simp only [Nat.reducePow, sum_range_succ, range_zero, sum_empty, embed, hag, if_true, ampAt, Nat.not_lt_zero,
      if_false]
    simp [idOp, indices] at hk ⊢
    exact hk
  refine ⟨[idOp 0, idOp 1], [0, 1, 0, 0], hwf, hnd, hid, rfl, out, [0, 1, 0, 0], h1, ?_, ?_⟩
  · have key : ∀ q, q < 2 → applyOpOverwrite 2 (idOp q) [0, 1, 0, 0] [0, 1, 0, 0] 0 0 = some [0, 1, 0, 0] := by
      intro q hq
      rw [applyOpOverwrite_eq 2 (idOp q) (by simp [idOp, MatrixOp.WF]) (by simpa [idOp, indices] using hq)]
      have : q = 0 ∨ q = 1 := by omega
      rcases this with rfl | rfl <;> decide
    rw [List.foldlM_cons, key 0 (by omega)]
    simp only [Option.bind_eq_bind, Option.bind_some, List.foldlM_cons, key 1 (by omega)]
    rfl
  · rintro rfl
    simp at o1

/-- C15 (partial: one op only). With a single op, `apply_ops` into a zero buffer is `apply_op_overwrite`. -/
theorem C15_apply_ops_single_partial (n : ℕ) (op : MatrixOp K) (hwf : op.WF)
    (hidx : ∀ i ∈ op.indices, i < n) (input output : List K) (ho : output.length = 2 ^ n) :
    ∃ w, applyOpOverwrite n op input output 0 0 = some w ∧
      applyOps n [op] input (List.replicate (2 ^ n) 0) 0 0 = some w := by
  refine ⟨_, applyOpOverwrite_eq n op hwf hidx _ _ _ _, ?_⟩
  rw [applyOps, applyOp_eq n op hwf hidx]
  congr 1
  apply List.ext_getElem
  · simp [ho]
  · intro i h1 h2
    simp

/-- C15 (partial: no op). With no op and windows of the same place, the input is copied. -/
theorem C15_apply_ops_none_partial (n : ℕ) (input output : List K) (off : ℕ) (h : input.length = output.length) :
    applyOps n [] input output off off = some input := by
  simp [applyOps, h, slice, overlay]

end Verif.Props
