import Verif.Proofs.Ops2
import Verif.Props.Apply

/-!
# C16–C20: op constructors and transformations
-/

namespace Verif.Props
open Verif Finset MatrixOp

variable {K : Type} [Semiring K]

/-! ## C16 -/

/-- C16. `transpose_op` succeeds on every well-formed op, keeps its qubits, and its matrix is the transpose. -/
theorem C16_transpose_op (op : MatrixOp K) (hwf : op.WF) :
    ∃ op', transposeOp op = some op' ∧ op'.WF ∧ op'.indices = op.indices ∧
      ∀ r c, r < 2 ^ op.indices.length → c < 2 ^ op.indices.length → opMat op' r c = opMat op c r :=
  transposeOp_spec op hwf

/-- C16. The parallel `transpose_sparse` gives the transposed matrix whatever order the pushes happen in; rows
come out sorted. -/
theorem C16_transpose_sparse_any_order (idx : List ℕ) (mat : List (List (ℕ × K)))
    (hwf : (MatrixOp.sparse idx mat).WF) (pushes : List (ℕ × (ℕ × K))) (hp : pushes.Perm (flattenSparse mat)) :
    ∃ m, transposeSparse mat pushes = some m ∧ (MatrixOp.sparse idx m).WF ∧
      (∀ row ∈ m, (row.map Prod.fst).Pairwise (· ≤ ·)) ∧
      ∀ r c, r < 2 ^ idx.length → c < 2 ^ idx.length →
        opMat (.sparse idx m) r c = opMat (.sparse idx mat) c r := by
  obtain ⟨m, h1, h2, h3, h4, h5⟩ := transposeSparse_spec mat (2 ^ idx.length) hwf.1 hwf.2 pushes hp
  exact ⟨m, h1, ⟨h2, h3⟩, h4, h5⟩

/-- C16. `conj_op` conjugates every entry. -/
theorem C16_conj_op [StarRing K] (op : MatrixOp K) (hwf : op.WF) :
    (conjOp op).WF ∧ (conjOp op).indices = op.indices ∧ ∀ r c, opMat (conjOp op) r c = star (opMat op r c) :=
  ⟨conjOp_wf op hwf, conjOp_indices op, conjOp_spec op⟩

/-- C16. `invert_op` is the conjugate transpose. -/
theorem C16_invert_op [StarRing K] (op : MatrixOp K) (hwf : op.WF) :
    ∃ op', invertOp op = some op' ∧ op'.WF ∧ op'.indices = op.indices ∧
      ∀ r c, r < 2 ^ op.indices.length → c < 2 ^ op.indices.length → opMat op' r c = star (opMat op c r) :=
  invertOp_spec op hwf

/-- C16. For a unitary op, applying the op and then its `invert_op` restores every state vector. -/
theorem C16_invert_restores [DecidableEq K] [StarRing K] (n : ℕ) (op : MatrixOp K) (hwf : op.WF)
    (hnd : op.indices.Nodup) (hidx : ∀ i ∈ op.indices, i < n) (hu : IsUnitary op.indices.length (opMat op))
    (input buf1 buf2 : List K) (hi : input.length = 2 ^ n) (h1 : buf1.length = 2 ^ n) (h2 : buf2.length = 2 ^ n) :
    ∃ op' mid, invertOp op = some op' ∧ applyOpOverwrite n op input buf1 0 0 = some mid ∧
      applyOpOverwrite n op' mid buf2 0 0 = some input := by
  obtain ⟨op', e1, e2, e3, e4⟩ := C16_invert_op op hwf
  obtain ⟨mid, g1, g2, g3⟩ := C10_apply_op_overwrite n op hwf hnd hidx input buf1 0 0 (by omega)
  obtain ⟨out, k1, k2, k3⟩ := C10_apply_op_overwrite n op' e2 (by rw [e3]; exact hnd) (by rw [e3]; exact hidx)
    mid buf2 0 0 (by omega)
  refine ⟨op', mid, e1, g1, ?_⟩
  rw [k1]
  congr 1
  apply List.ext_getElem?
  intro r
  by_cases hr : r < 2 ^ n
  · rw [k3 r (by omega), e3, Nat.zero_add]
    have hmid : ∀ c, c < 2 ^ n → ampAt mid 0 c =
        ∑ d ∈ range (2 ^ n), embed n op.indices (opMat op) c d * ampAt input 0 d := by
      intro c hc
      have := g3 c (by omega)
      rw [Nat.zero_add] at this
      simp [ampAt, this]
    have : ∑ c ∈ range (2 ^ n), embed n op.indices (opMat op') r c * ampAt mid 0 c = ampAt input 0 r := by
      have s1 : ∀ c ∈ range (2 ^ n), embed n op.indices (opMat op') r c * ampAt mid 0 c =
          ∑ d ∈ range (2 ^ n), (star (embed n op.indices (opMat op) c r) * embed n op.indices (opMat op) c d) *
            ampAt input 0 d := by
        intro c hc
        rw [hmid c (mem_range.mp hc), mul_sum, embed_congr n op.indices _ _ e4, ← embed_star, ← embed_swap]
        apply sum_congr rfl
        intro d _
        rw [mul_assoc]
      rw [sum_congr rfl s1, sum_comm, sum_eq_single r]
      · rw [← sum_mul, embed_unitary n op.indices hnd hidx _ hu r r hr hr, if_pos rfl, one_mul]
      · intro d hd hne
        rw [← sum_mul, embed_unitary n op.indices hnd hidx _ hu r d hr (mem_range.mp hd), if_neg (Ne.symm hne),
          zero_mul]
      · intro h; exact absurd (mem_range.mpr hr) h
    rw [this, ampAt_zero_offset _ _ (by omega), List.getElem?_eq_getElem (by omega)]
  · rw [List.getElem?_eq_none (by omega), List.getElem?_eq_none (by omega)]

/-- C16. Swap ops are unitary, and controlling a unitary op gives a unitary op. -/
theorem C16_unitary_closed [StarRing K] :
    (∀ (a : ℕ) (idx : List ℕ), (MatrixOp.swap a idx : MatrixOp K).WF →
      IsUnitary idx.length (opMat (.swap a idx : MatrixOp K))) ∧
    (∀ (nc : ℕ) (idx : List ℕ) (op : MatrixOp K), (MatrixOp.control nc idx op).WF →
      IsUnitary op.indices.length (opMat op) → IsUnitary idx.length (opMat (.control nc idx op))) := by
  constructor
  · intro a idx hwf
    rw [show idx.length = a * 2 from hwf]
    exact swap_unitary a idx
  · intro nc idx op hwf hu
    obtain ⟨h1, h2, h3⟩ := hwf
    rw [h3] at hu
    have := ctrlMat_unitary nc (idx.length - nc) (opMat op) hu
    rwa [show nc + (idx.length - nc) = idx.length by omega] at this

/-- instance: the doubly controlled swap of three qubits out of five is unitary and well formed -/
example : (MatrixOp.control 2 [4, 1, 0, 3] (.swap 1 [0, 3]) : MatrixOp ℂ).WF ∧
    IsUnitary 4 (opMat (.control 2 [4, 1, 0, 3] (.swap 1 [0, 3]) : MatrixOp ℂ)) := by
  refine ⟨by simp [MatrixOp.WF, indices], ?_⟩
  exact C16_unitary_closed.2 2 [4, 1, 0, 3] (.swap 1 [0, 3]) (by simp [MatrixOp.WF, indices])
    (C16_unitary_closed.1 1 [0, 3] (by simp [MatrixOp.WF]))

/-- instance: transposing `[[1,2],[3,4]]` puts 3 into the upper right corner -/
example : ∃ op', transposeOp (.matrix [7] ([1, 2, 3, 4] : List ℤ)) = some op' ∧ opMat op' 0 1 = 3 := by
  obtain ⟨op', h1, _, _, h4⟩ := C16_transpose_op (.matrix [7] ([1, 2, 3, 4] : List ℤ)) (by simp [MatrixOp.WF])
  exact ⟨op', h1, by rw [h4 0 1 (by simp [indices]) (by simp [indices])]; simp [opMat]⟩

/-! ## C17 -/

/-- C17. Applying a unitary op keeps `prob_magnitude`. -/
theorem C17_prob_magnitude (n : ℕ) (op : MatrixOp ℂ) (hwf : op.WF)
    (hnd : op.indices.Nodup) (hidx : ∀ i ∈ op.indices, i < n) (hu : IsUnitary op.indices.length (opMat op))
    (input output : List ℂ) (hi : input.length = 2 ^ n) (ho : output.length = 2 ^ n) :
    ∃ out, applyOpOverwrite n op input output 0 0 = some out ∧ probMagnitude out = probMagnitude input := by
  obtain ⟨out, g1, g2, g3⟩ := C10_apply_op_overwrite n op hwf hnd hidx input output 0 0 (by omega)
  refine ⟨out, g1, ?_⟩
  rw [probMagnitude_eq, probMagnitude_eq, g2, ho, hi]
  rw [← normSq_sum_unitary (2 ^ n) (embed n op.indices (opMat op))
    (embed_unitary n op.indices hnd hidx _ hu) (ampAt input 0)]
  apply sum_congr rfl
  intro r hr
  have := g3 r (by have := mem_range.mp hr; omega)
  rw [Nat.zero_add] at this
  simp [ampAt, this]

/-- instance: the hypotheses hold for a controlled swap on three qubits -/
example : (MatrixOp.control 1 [2, 0, 1] (.swap 1 [0, 1]) : MatrixOp ℂ).indices.Nodup ∧
    IsUnitary 3 (opMat (.control 1 [2, 0, 1] (.swap 1 [0, 1]) : MatrixOp ℂ)) :=
  ⟨by simp [indices], C16_unitary_closed.2 1 [2, 0, 1] (.swap 1 [0, 1]) (by simp [MatrixOp.WF, indices])
    (C16_unitary_closed.1 1 [0, 1] (by simp [MatrixOp.WF]))⟩

/-! ## C18 -/

/-- C18. `make_matrix_op` accepts exactly a non-empty index list with `2^k · 2^k` entries. -/
theorem C18_make_matrix_op (idx : List ℕ) (dat : List K) :
    (idx ≠ [] ∧ dat.length = 2 ^ idx.length * 2 ^ idx.length →
      makeMatrixOp idx dat = .ok (.matrix idx dat) ∧ (MatrixOp.matrix idx dat).WF) ∧
    (¬ (idx ≠ [] ∧ dat.length = 2 ^ idx.length * 2 ^ idx.length) → makeMatrixOp idx dat = .error .error) := by
  have e : 1 <<< (2 * idx.length) = 2 ^ idx.length * 2 ^ idx.length := by
    rw [Nat.one_shiftLeft, ← Nat.pow_add]; congr 1; omega
  constructor
  · rintro ⟨h1, h2⟩
    exact ⟨by simp [makeMatrixOp, h1, h2, e], h2⟩
  · intro h
    unfold makeMatrixOp
    by_cases h1 : idx = []
    · simp [h1]
    · have h2 : dat.length ≠ 2 ^ idx.length * 2 ^ idx.length := fun h2 => h ⟨h1, h2⟩
      simp [h1, h2, e]

/-- C18. `make_sparse_matrix_op` accepts exactly a non-empty index list with `2^k` non-empty rows (in either
order); everything else is an error, nothing panics. -/
theorem C18_make_sparse_matrix_op (idx : List ℕ) (hk : idx.length ≤ 64) (dat : List (List (ℕ × K)))
    (order : Representation) :
    (idx ≠ [] ∧ dat.length = 2 ^ idx.length ∧ [] ∉ dat →
      ∃ m, makeSparseMatrixOp idx dat order = .ok (.sparse idx m) ∧ m.length = 2 ^ idx.length ∧
        (order = .bigEndian → m = dat)) ∧
    (¬ (idx ≠ [] ∧ dat.length = 2 ^ idx.length ∧ [] ∉ dat) →
      makeSparseMatrixOp idx dat order = .error .error) := by
  have hany : dat.any List.isEmpty = true ↔ [] ∈ dat := by
    simp [List.any_eq_true, List.isEmpty_iff]
  constructor
  · rintro ⟨h1, h2, h3⟩
    have h3' : dat.any List.isEmpty = false := by
      rw [Bool.eq_false_iff]; intro h; exact h3 (hany.mp h)
    have hpos : 1 ≤ idx.length := List.length_pos_iff.mpr h1
    cases order with
    | bigEndian => exact ⟨dat, by simp [makeSparseMatrixOp, h1, h2, Nat.one_shiftLeft, h3'], h2, fun _ => rfl⟩
    | littleEndian =>
      obtain ⟨m, g1, g2, _⟩ := reorderRows_spec idx.length hpos hk dat h2
      refine ⟨m, ?_, g2, by simp⟩
      simp [makeSparseMatrixOp, h1, h2, Nat.one_shiftLeft, h3', g1, orPanic, Except.map]
  · intro h
    unfold makeSparseMatrixOp
    by_cases h1 : idx = []
    · simp [h1]
    · by_cases h2 : dat.length = 2 ^ idx.length
      · have h3 : dat.any List.isEmpty = true := by
          rw [hany]; by_contra h3; exact h ⟨h1, h2, h3⟩
        simp [h1, h2, Nat.one_shiftLeft, h3]
      · simp [h1, h2, Nat.one_shiftLeft]

/-- C18. `make_swap_op` accepts exactly two non-empty index lists of equal length. -/
theorem C18_make_swap_op (a b : List ℕ) :
    (a ≠ [] ∧ a.length = b.length → makeSwapOp a b = .ok (.swap a.length (a ++ b) : MatrixOp K) ∧
      (MatrixOp.swap a.length (a ++ b) : MatrixOp K).WF) ∧
    (¬ (a ≠ [] ∧ a.length = b.length) → (makeSwapOp a b : Except Fail (MatrixOp K)) = .error .error) := by
  constructor
  · rintro ⟨h1, h2⟩
    have hb : b ≠ [] := by
      intro hb; subst hb; simp at h2; exact h1 h2
    exact ⟨by simp [makeSwapOp, h1, hb, h2], by simp [MatrixOp.WF]; omega⟩
  · intro h
    unfold makeSwapOp
    by_cases h1 : a = []
    · simp [h1]
    · by_cases hb : b = []
      · simp [hb]
      · have : a.length ≠ b.length := fun h2 => h ⟨h1, h2⟩
        simp [h1, hb, this]

/-- C18. `make_control_op` rejects an empty control list and otherwise returns a well-formed op on the control
qubits followed by the op's qubits, whose matrix is the op's matrix behind the new controls — also when nested
controls are collapsed. -/
theorem C18_make_control_op (c : List ℕ) (op : MatrixOp K) (hwf : op.WF) :
    (c = [] → makeControlOp c op = .error .error) ∧
    (c ≠ [] → ∃ op', makeControlOp c op = .ok op' ∧ op'.WF ∧ op'.indices = c ++ op.indices ∧
      ∀ r s, r < 2 ^ (c.length + op.indices.length) → s < 2 ^ (c.length + op.indices.length) →
        opMat op' r s = ctrlMat c.length op.indices.length (opMat op) r s) := by
  constructor
  · rintro rfl; simp [makeControlOp]
  · intro hc
    cases op with
    | matrix idx data =>
      exact ⟨_, by simp [makeControlOp, hc]; rfl, by simp [MatrixOp.WF, indices]; exact hwf, rfl,
        fun r s _ _ => by simp [opMat, indices]⟩
    | sparse idx rows =>
      exact ⟨_, by simp [makeControlOp, hc]; rfl, by simpa [MatrixOp.WF, indices] using hwf, rfl,
        fun r s _ _ => by simp [opMat, indices]⟩
    | swap a idx =>
      exact ⟨_, by simp [makeControlOp, hc]; rfl, by simp [MatrixOp.WF, indices]; exact hwf, rfl,
        fun r s _ _ => by simp [opMat, indices]⟩
    | control nc idx op =>
      obtain ⟨h1, h2, h3⟩ := hwf
      refine ⟨.control (c.length + nc) (c ++ idx) op, by simp [makeControlOp, hc],
        ⟨by simp; omega, h2, by simp; omega⟩, rfl, ?_⟩
      intro r s hr hs
      simp only [opMat, indices] at hr hs ⊢
      rw [show (c ++ idx).length - (c.length + nc) = idx.length - nc by simp; omega]
      have e : idx.length = nc + (idx.length - nc) := by omega
      rw [e] at hr hs
      rw [ctrlMat_nest c.length nc (idx.length - nc) (opMat op) r s hr hs, ← e]

/-- instance: controlling an already controlled dense op collapses to one control level -/
example : makeControlOp [5] (.control 1 [2, 0] (.matrix [0] ([0, 1, 1, 0] : List ℤ))) =
    .ok (.control 2 [5, 2, 0] (.matrix [0] [0, 1, 1, 0])) := rfl

/-! ## C19 -/

/-- C19. The op made from little-endian data has, at (row, column), the data's entry at the bit-reversed row and
column. -/
theorem C19_little_endian (idx : List ℕ) (h0 : idx ≠ []) (hk : idx.length ≤ 64) (dat : List (List (ℕ × K)))
    (hlen : dat.length = 2 ^ idx.length) (hne : [] ∉ dat) (hcol : ∀ row ∈ dat, ∀ e ∈ row, e.1 < 2 ^ idx.length) :
    ∃ op, makeSparseMatrixOp idx dat .littleEndian = .ok op ∧ op.WF ∧ op.indices = idx ∧
      ∀ r c, r < 2 ^ idx.length → c < 2 ^ idx.length →
        opMat op r c = opMat (.sparse idx dat) (rev idx.length r) (rev idx.length c) := by
  have hpos : 1 ≤ idx.length := List.length_pos_iff.mpr h0
  have h3' : dat.any List.isEmpty = false := by
    rw [Bool.eq_false_iff]
    simpa [List.any_eq_true, List.isEmpty_iff] using hne
  obtain ⟨m, g1, g2, g3⟩ := reorderRows_spec idx.length hpos hk dat hlen
  refine ⟨.sparse idx m, ?_, ⟨g2, ?_⟩, rfl, ?_⟩
  · simp [makeSparseMatrixOp, h0, hlen, Nat.one_shiftLeft, h3', g1, orPanic, Except.map]
  · intro row hrow e he
    obtain ⟨i, hi, rfl⟩ := List.mem_iff_getElem.mp hrow
    have := g3 i (by omega)
    rw [List.getElem?_eq_getElem hi, List.getElem?_eq_getElem (by have := rev_lt idx.length i; omega)] at this
    simp only [Option.map_some, Option.some.injEq] at this
    rw [this, List.mem_map] at he
    obtain ⟨x, _, rfl⟩ := he
    exact rev_lt _ _
  · intro r c hr hc
    have hb := rev_lt idx.length r
    simp only [opMat, g3 r hr]
    rw [List.getElem?_eq_getElem (by omega)]
    simp only [Option.map_some, Option.getD_some, List.filter_map, List.map_map]
    congr 1
    have : (dat[rev idx.length r].filter ((fun e : ℕ × K => e.1 == c) ∘ fun e => (rev idx.length e.1, e.2))) =
        dat[rev idx.length r].filter (fun e => e.1 == rev idx.length c) := by
      apply List.filter_congr
      intro e he
      have hlt := hcol _ (List.getElem_mem _) e he
      simp only [Function.comp_apply, beq_eq_beq]
      constructor
      · intro h; rw [← h, rev_rev _ _ hlt]
      · intro h; rw [h, rev_rev _ _ hc]
    rw [this]
    rfl

/-- C19. Tabulating a function in one order and wrapping the table in the other order gives the same op whichever
of the two steps does the reversal. -/
theorem C19_function_order (idx : List ℕ) (h0 : idx ≠ []) (hk : idx.length ≤ 64) (f : ℕ → List (ℕ × K)) :
    ∃ le be, makeSparseMatrixFromFunction idx.length f .littleEndian = some le ∧
      makeSparseMatrixFromFunction idx.length f .bigEndian = some be ∧
      makeSparseMatrixOp idx le .bigEndian = makeSparseMatrixOp idx be .littleEndian := by
  have hpos : 1 ≤ idx.length := List.length_pos_iff.mpr h0
  have e1 : makeSparseMatrixFromFunction idx.length f .littleEndian =
      some ((List.range (2 ^ idx.length)).map fun i =>
        (f (rev idx.length i)).map fun e => (rev idx.length e.1, e.2)) := by
    unfold makeSparseMatrixFromFunction
    rw [Nat.one_shiftLeft]
    apply mapM_some
    intro i _
    simp only [flipBits_eq_rev _ i hpos hk, Option.bind_eq_bind, Option.bind_some, flipCols_eq _ hpos hk]
  have e2 : makeSparseMatrixFromFunction idx.length f .bigEndian =
      some ((List.range (2 ^ idx.length)).map f) := by
    unfold makeSparseMatrixFromFunction
    rw [Nat.one_shiftLeft]
    apply mapM_some
    intro i _
    rfl
  refine ⟨_, _, e1, e2, ?_⟩
  obtain ⟨m, g1, g2, g3⟩ := reorderRows_spec idx.length hpos hk ((List.range (2 ^ idx.length)).map f) (by simp)
  have hm : m = (List.range (2 ^ idx.length)).map fun i =>
      (f (rev idx.length i)).map fun e => (rev idx.length e.1, e.2) := by
    apply List.ext_getElem?
    intro i
    by_cases hi : i < 2 ^ idx.length
    · rw [g3 i hi]
      simp [hi, rev_lt]
    · rw [List.getElem?_eq_none (by omega), List.getElem?_eq_none (by simp; omega)]
  rw [hm] at g1
  have hany : ((List.range (2 ^ idx.length)).map fun i =>
      (f (rev idx.length i)).map fun e => (rev idx.length e.1, e.2)).any List.isEmpty =
      ((List.range (2 ^ idx.length)).map f).any List.isEmpty := by
    rw [Bool.eq_iff_iff]
    simp only [List.any_map, List.any_eq_true, List.mem_range, Function.comp_apply, List.isEmpty_iff,
      List.map_eq_nil_iff]
    constructor
    · rintro ⟨x, hx, h⟩; exact ⟨_, rev_lt _ x, h⟩
    · rintro ⟨x, hx, h⟩; exact ⟨rev idx.length x, rev_lt _ x, by rw [rev_rev _ _ hx]; exact h⟩
  simp only [makeSparseMatrixOp, hany, List.length_map, List.length_range, Nat.one_shiftLeft, g1, orPanic, Except.map]

/-- instance: with two qubits, little-endian row 1 is big-endian row 2 -/
example : rev 2 1 = 2 ∧ rev 2 2 = 1 ∧ rev 2 3 = 3 := by decide

/-! ## C20 -/

/-- C20. Entry `[i][j]` of `make_op_matrix` is the amplitude of basis state `j` in `op |i⟩`, i.e. entry (j, i) of
the usual matrix. -/
theorem C20_make_op_matrix [DecidableEq K] (n : ℕ) (op : MatrixOp K) (hwf : op.WF)
    (hnd : op.indices.Nodup) (hidx : ∀ i ∈ op.indices, i < n) :
    ∃ m, makeOpMatrix n op = some m ∧ m.length = 2 ^ n ∧
      ∀ i, i < 2 ^ n → ∃ row, m[i]? = some row ∧ row.length = 2 ^ n ∧
        ∀ j, j < 2 ^ n → row[j]? = some (embed n op.indices (opMat op) j i) := by
  have key : ∀ i, i < 2 ^ n → applyOp n op ((List.replicate (2 ^ n) 0).set i 1) (List.replicate (2 ^ n) 0) 0 0 =
      some ((List.range (2 ^ n)).map fun j => embed n op.indices (opMat op) j i) := by
    intro i hi
    obtain ⟨out, h1, h2, h3⟩ := C11_apply_op_accumulates n op hwf hnd hidx
      ((List.replicate (2 ^ n) 0).set i 1) (List.replicate (2 ^ n) 0) 0 0 (by simp)
    rw [h1]
    congr 1
    apply List.ext_getElem?
    intro j
    by_cases hj : j < 2 ^ n
    · rw [h3 j (by simpa using hj), List.getElem_replicate, zero_add, Nat.zero_add, sum_eq_single i]
      · simp [ampAt, hi, hj]
      · intro c hc hne
        simp [ampAt, mem_range.mp hc, List.getElem?_set, Ne.symm hne]
      · intro h; exact absurd (mem_range.mpr hi) h
    · rw [List.getElem?_eq_none (by rw [h2]; simpa using hj), List.getElem?_eq_none (by simpa using hj)]
  refine ⟨(List.range (2 ^ n)).map fun i => (List.range (2 ^ n)).map fun j => embed n op.indices (opMat op) j i,
    ?_, by simp, ?_⟩
  · unfold makeOpMatrix
    simp only [Nat.one_shiftLeft]
    apply mapM_some
    intro i hi
    exact key i (List.mem_range.mp hi)
  · intro i hi
    exact ⟨(List.range (2 ^ n)).map fun j => embed n op.indices (opMat op) j i, by simp [hi], by simp,
      fun j hj => by simp [hj]⟩

/-- instance: for the non-symmetric matrix `[[1,2],[3,4]]`, `make_op_matrix` puts 2 (upper right) below the
diagonal -/
example : ∃ m row, makeOpMatrix 1 (.matrix [0] ([1, 2, 3, 4] : List ℤ)) = some m ∧ m[1]? = some row ∧
    row[0]? = some 2 := by
  obtain ⟨m, h1, _, h3⟩ := C20_make_op_matrix 1 (.matrix [0] ([1, 2, 3, 4] : List ℤ)) (by simp [MatrixOp.WF])
    (by simp [indices]) (by simp [indices])
  obtain ⟨row, g1, _, g3⟩ := h3 1 (by decide)
  refine ⟨m, row, h1, g1, ?_⟩
  rw [g3 0 (by decide)]
  have hag : AgreeOff 1 [0] 0 1 := by
    intro q hq hm; exfalso; apply hm; simp; omega
  have hq : ∀ x, x < 2 → readQubits 1 [0] x = x := by decide
  simp [embed, indices, hag, opMat, hq]

/-! ## C03, `select_matrix_coords` -/

/-- C03. `select_matrix_coords` gives the op's row and column: qubit `idx[j]` of the full row/column becomes bit
`k-1-j`. -/
theorem C03_select_matrix_coords (n : ℕ) (idx : List ℕ) (row col : ℕ) (h : ∀ i ∈ idx, i < n) :
    ∃ a b, selectMatrixCoords n idx.length idx row col = some (a, b) ∧ a < 2 ^ idx.length ∧ b < 2 ^ idx.length ∧
      ∀ j (hj : j < idx.length), a.testBit (idx.length - 1 - j) = row.testBit (n - 1 - idx[j]) ∧
        b.testBit (idx.length - 1 - j) = col.testBit (n - 1 - idx[j]) := by
  have key : ∀ x, f2s n idx x = (List.range idx.length).foldl
      (fun acc j => setBit acc (idx.length - 1 - j) (x.testBit (n - 1 - idx.getD j 0))) 0 := by
    intro x
    have : idx.zipIdx = (List.range idx.length).map fun j => (idx.getD j 0, j) := by
      apply List.ext_getElem
      · simp
      · intro i h1 h2
        simp at h1
        simp [h1]
    unfold f2s foldSet f2sPairs
    rw [this, List.map_map, List.foldl_map]
    rfl
  have pair : ∀ (l : List ℕ) (f g : ℕ → ℕ → ℕ) (a b : ℕ),
      l.foldl (fun (p : ℕ × ℕ) j => (f p.1 j, g p.2 j)) (a, b) = (l.foldl f a, l.foldl g b) := by
    intro l f g
    induction l with
    | nil => intros; rfl
    | cons x l ih => intro a b; simp [ih]
  refine ⟨f2s n idx row, f2s n idx col, ?_, f2s_lt _ _ _, f2s_lt _ _ _, ?_⟩
  · unfold selectMatrixCoords
    rw [foldlM_some (g := fun p j => (setBit p.1 (idx.length - 1 - j) (row.testBit (n - 1 - idx.getD j 0)),
      setBit p.2 (idx.length - 1 - j) (col.testBit (n - 1 - idx.getD j 0)))), key, key]
    · exact congrArg some (pair _ (fun a j => setBit a (idx.length - 1 - j) (row.testBit (n - 1 - idx.getD j 0)))
        (fun a j => setBit a (idx.length - 1 - j) (col.testBit (n - 1 - idx.getD j 0))) 0 0)
    intro b j hj
    have hj' := List.mem_range.mp hj
    have e1 : idx[j]? = some idx[j] := List.getElem?_eq_getElem hj'
    have e2 : bitPos n idx[j] = some (n - 1 - idx[j]) := by
      unfold bitPos; rw [if_pos (h _ (List.getElem_mem hj'))]
    have e3 : bitPos idx.length j = some (idx.length - 1 - j) := by unfold bitPos; rw [if_pos hj']
    simp only [e1, Option.bind_eq_bind, Option.bind_some, e2, e3, getBit_eq]
    simp [hj']
  · intro j hj
    constructor <;>
    · rw [testBit_f2s, dif_pos (by omega)]
      congr 3; omega

/-- instance: rows and columns of a 2-qubit op on qubits 2 and 0 of three -/
example : ∃ a b, selectMatrixCoords 3 2 [2, 0] 4 1 = some (a, b) ∧ a.testBit 0 = true ∧ b.testBit 1 = true := by
  obtain ⟨a, b, h1, _, _, h4⟩ := C03_select_matrix_coords 3 [2, 0] 4 1 (by decide)
  have e1 := (h4 1 (by decide)).1
  have e2 := (h4 0 (by decide)).2
  refine ⟨a, b, h1, ?_, ?_⟩
  · exact e1.trans (by decide)
  · exact e2.trans (by decide)

end Verif.Props
