import Verif.Model.Apply
import Verif.Spec.Matrix
import Verif.Proofs.Apply

/-!
# The items of a row, for any arithmetic

`items` for well-formed ops, without any law of addition or multiplication.
-/

namespace Verif
open MatrixOp

section
variable {F : Type} [Zero F] [One F] [DecidableEq F]

/-- the items of one row of an op, as a plain list -/
def rowItems : MatrixOp F → ℕ → List (ℕ × F)
  | .matrix idx data, r => nzItems (denseRow data idx.length r) 0
  | .sparse _ rows, r => (rows[r]?).getD []
  | .swap a _, r => [(swapHalves a r, 1)]
  | .control nc idx op, r =>
    if 2 ^ idx.length - 2 ^ (idx.length - nc) ≤ r then
      (rowItems op (r - (2 ^ idx.length - 2 ^ (idx.length - nc)))).map
        fun e => (e.1 + (2 ^ idx.length - 2 ^ (idx.length - nc)), e.2)
    else [(r, 1)]

/-- the items of a row behind `nc` controls -/
def ctrlRow (nc no : ℕ) (f : ℕ → List (ℕ × F)) (r : ℕ) : List (ℕ × F) :=
  if 2 ^ (nc + no) - 2 ^ no ≤ r then
    (f (r - (2 ^ (nc + no) - 2 ^ no))).map fun e => (e.1 + (2 ^ (nc + no) - 2 ^ no), e.2)
  else [(r, 1)]

omit [Zero F] [DecidableEq F] in
theorem ctrlRow_nest (nc nc' no : ℕ) (f : ℕ → List (ℕ × F)) (r : ℕ) :
    ctrlRow nc (nc' + no) (ctrlRow nc' no f) r = ctrlRow (nc + nc') no f r := by
  have h1 : 2 ^ no ≤ 2 ^ (nc' + no) := Nat.pow_le_pow_right (by norm_num) (by omega)
  have h2 : 2 ^ (nc' + no) ≤ 2 ^ (nc + (nc' + no)) := Nat.pow_le_pow_right (by norm_num) (by omega)
  have e : nc + nc' + no = nc + (nc' + no) := by omega
  unfold ctrlRow
  rw [e]
  generalize 2 ^ no = a at *
  generalize 2 ^ (nc' + no) = b at *
  generalize 2 ^ (nc + (nc' + no)) = c at *
  by_cases hA : c - b ≤ r
  · rw [if_pos hA]
    by_cases hB : b - a ≤ r - (c - b)
    · rw [if_pos hB, if_pos (by omega), List.map_map]
      rw [show r - (c - b) - (b - a) = r - (c - a) by omega]
      apply List.map_congr_left
      intro x _
      simp only [Function.comp_apply]
      rw [show x.1 + (b - a) + (c - b) = x.1 + (c - a) by omega]
    · rw [if_neg hB, if_neg (by omega)]
      simp only [List.map_cons, List.map_nil]
      rw [show r - (c - b) + (c - b) = r by omega]
  · rw [if_neg hA, if_neg (by omega)]

theorem controlItems_rows (op : MatrixOp F) (hwf : op.WF) (nc row : ℕ)
    (h : row < 2 ^ (nc + op.indices.length)) :
    controlItems op row nc op.indices.length = some (ctrlRow nc op.indices.length (rowItems op) row) := by
  have hpow : ∀ no, 2 ^ no ≤ 2 ^ (nc + no) := fun no => Nat.pow_le_pow_right (by norm_num) (by omega)
  induction op generalizing nc with
  | matrix idx data =>
    simp only [indices] at h ⊢
    by_cases hc : 2 ^ (nc + idx.length) - 2 ^ idx.length ≤ row
    · have hr : row - (2 ^ (nc + idx.length) - 2 ^ idx.length) < 2 ^ idx.length := by
        have := hpow idx.length; omega
      have hlen : (row - (2 ^ (nc + idx.length) - 2 ^ idx.length) + 1) * 2 ^ idx.length ≤ data.length := by
        rw [hwf]; exact Nat.mul_le_mul_right _ hr
      simp only [controlItems, CtrlIter.new, Nat.one_shiftLeft, ge_iff_le, hc, if_true,
        mat_new data _ _ hlen, Option.map_some, Option.bind_eq_bind, Option.bind_some]
      rw [drain_ctrl_on row _ _ _ _ none (drain_mat_row data idx.length _ hlen)]
      rw [ctrlRow, if_pos hc]; rfl
    · simp only [controlItems, CtrlIter.new, Nat.one_shiftLeft, ge_iff_le, hc, if_false,
          Option.bind_eq_bind, Option.bind_some]
      rw [drain_ctrl_off, ctrlRow, if_neg hc]; rfl
  | sparse idx rows =>
    simp only [indices] at h ⊢
    by_cases hc : 2 ^ (nc + idx.length) - 2 ^ idx.length ≤ row
    · have hr : row - (2 ^ (nc + idx.length) - 2 ^ idx.length) < 2 ^ idx.length := by
        have := hpow idx.length; omega
      have hlen : row - (2 ^ (nc + idx.length) - 2 ^ idx.length) < rows.length := by rw [hwf.1]; exact hr
      simp only [controlItems, CtrlIter.new, Nat.one_shiftLeft, ge_iff_le, hc, if_true,
        SparseIter.new, List.getElem?_eq_getElem hlen, Option.map_some, Option.bind_eq_bind, Option.bind_some]
      have := drain_sparse [] (rows[row - (2 ^ (nc + idx.length) - 2 ^ idx.length)]) none rfl
      rw [List.nil_append] at this
      rw [drain_ctrl_on row _ _ _ _ none this, ctrlRow, if_pos hc, rowItems, List.getElem?_eq_getElem hlen]
      rfl
    · simp only [controlItems, CtrlIter.new, Nat.one_shiftLeft, ge_iff_le, hc, if_false,
          Option.bind_eq_bind, Option.bind_some]
      rw [drain_ctrl_off, ctrlRow, if_neg hc]; rfl
  | swap a idx =>
    simp only [indices] at h ⊢
    have hidx : idx.length = a * 2 := hwf
    by_cases hc : 2 ^ (nc + idx.length) - 2 ^ idx.length ≤ row
    · simp only [controlItems, CtrlIter.new, Nat.one_shiftLeft, ge_iff_le, hc, if_true,
        Option.map_some, Option.bind_eq_bind, Option.bind_some]
      have := drain_swap (K := F) (row - (2 ^ (nc + idx.length) - 2 ^ idx.length)) idx.length
      rw [show idx.length / 2 = a by omega] at this
      rw [drain_ctrl_on row _ _ _ _ none this, ctrlRow, if_pos hc]
      rfl
    · simp only [controlItems, CtrlIter.new, Nat.one_shiftLeft, ge_iff_le, hc, if_false,
          Option.bind_eq_bind, Option.bind_some]
      rw [drain_ctrl_off, ctrlRow, if_neg hc]; rfl
  | control nc' idx op ih =>
    obtain ⟨h1, h2, h3⟩ := hwf
    simp only [indices] at h ⊢
    have hsum : nc + idx.length = nc + nc' + op.indices.length := by omega
    have hl := ih h2 (nc + nc') (by rw [← hsum]; exact h)
      (fun no => Nat.pow_le_pow_right (by norm_num) (by omega))
    rw [controlItems, if_pos h1, ← h3, hl, ← ctrlRow_nest]
    have hlen : idx.length = nc' + op.indices.length := by omega
    congr 1
    rw [← hlen]
    congr 1
    funext r
    simp only [ctrlRow, rowItems, ← h3, ← hlen]

theorem items_rows (op : MatrixOp F) (hwf : op.WF) (row : ℕ) (h : row < 2 ^ op.indices.length) :
    items op op.indices.length row = some (rowItems op row) := by
  cases op with
  | matrix idx data =>
    simp only [indices] at h ⊢
    have hlen : (row + 1) * 2 ^ idx.length ≤ data.length := by
      rw [hwf]; exact Nat.mul_le_mul_right _ h
    simp only [items, mat_new data _ _ hlen, Option.bind_eq_bind, Option.bind_some, drain_mat_row data _ _ hlen, rowItems]
  | sparse idx rows =>
    simp only [indices] at h ⊢
    have hlen : row < rows.length := by rw [hwf.1]; exact h
    have := drain_sparse [] rows[row] none rfl
    rw [List.nil_append] at this
    simp only [items, SparseIter.new, List.getElem?_eq_getElem hlen, Option.bind_eq_bind, Option.bind_some, this, rowItems, Option.getD_some]
  | swap a idx =>
    simp only [indices] at h ⊢
    have hidx : idx.length = a * 2 := hwf
    have := drain_swap (K := F) row idx.length
    rw [show idx.length / 2 = a by omega] at this
    simp only [items, this, Option.bind_eq_bind, Option.bind_some, rowItems]
  | control nc idx op =>
    obtain ⟨h1, h2, h3⟩ := hwf
    simp only [indices] at h ⊢
    have hlen : idx.length = nc + op.indices.length := by omega
    have hl := controlItems_rows op h2 nc row (by rw [← hlen]; exact h)
    rw [items, if_pos h1, ← h3, hl]
    simp only [ctrlRow, rowItems, ← h3, ← hlen]

/-- the columns of a row of a well-formed op are in range -/
theorem rowItems_lt (op : MatrixOp F) (hwf : op.WF) (row : ℕ) (h : row < 2 ^ op.indices.length) :
    ∀ e ∈ rowItems op row, e.1 < 2 ^ op.indices.length := by
  induction op generalizing row with
  | matrix idx data =>
    simp only [indices] at h ⊢
    have hlen : (row + 1) * 2 ^ idx.length ≤ data.length := by
      rw [hwf]; exact Nat.mul_le_mul_right _ h
    intro e he
    simp only [rowItems, nzItems, List.mem_map, List.mem_filter] at he
    obtain ⟨a, ⟨ha, _⟩, rfl⟩ := he
    rw [List.mem_zipIdx_iff_getElem?] at ha
    have := (List.getElem?_eq_some_iff.mp ha).1
    rwa [denseRow_length data _ row hlen] at this
  | sparse idx rows =>
    simp only [indices] at h ⊢
    have hlen : row < rows.length := by rw [hwf.1]; exact h
    rw [rowItems, List.getElem?_eq_getElem hlen]
    exact hwf.2 _ (List.getElem_mem _)
  | swap a idx =>
    have hidx : idx.length = a * 2 := hwf
    simp only [indices, hidx] at h ⊢
    intro e he
    simp only [rowItems, List.mem_singleton] at he
    subst he
    exact swapHalves_lt a row h
  | control nc idx op ih =>
    obtain ⟨h1, h2, h3⟩ := hwf
    simp only [indices] at h ⊢
    have hp : 2 ^ (idx.length - nc) ≤ 2 ^ idx.length := Nat.pow_le_pow_right (by norm_num) (by omega)
    intro e he
    rw [rowItems] at he
    split at he
    · rw [List.mem_map] at he
      obtain ⟨a, ha, rfl⟩ := he
      have := ih h2 _ (by rw [h3]; omega) a ha
      rw [h3] at this
      simp only
      omega
    · simp only [List.mem_singleton] at he
      subst he; exact h

end

section
variable {F : Type} [Zero F] [One F] [Add F] [Mul F] [DecidableEq F]

omit [Zero F] [One F] [Add F] [Mul F] [DecidableEq F] in
theorem matIndices_any (op : MatrixOp F) (hwf : op.WF) : matIndices op = some op.indices := by
  have key : ∀ l : List ℕ, (List.range l.length).mapM (fun i => l[i]?) = some l := by
    intro l
    cases l with
    | nil => rfl
    | cons a l =>
      rw [mapM_some _ _ (fun i => ((a :: l)[i]?).getD 0)]
      · congr 1
        apply List.ext_getElem
        · simp
        · intro i h1 h2
          rw [List.getElem_map, List.getElem_range, List.getElem?_eq_getElem h2]; rfl
      · intro i hi
        have : i < (a :: l).length := by simpa using hi
        rw [List.getElem?_eq_getElem this]; rfl
  have hk : op.numIndices = some op.indices.length := by
    cases op with
    | matrix idx data => rfl
    | sparse idx rows => rfl
    | swap a idx => have : idx.length = a * 2 := hwf; simp [numIndices, indices, this]
    | control nc idx op => rfl
  simp only [matIndices, hk, Option.bind_eq_bind, Option.bind_some, key]

/-- what `apply_op_overwrite` writes into entry `r` of an undivided state -/
def rowTotal (n : ℕ) (op : MatrixOp F) (input : List F) (r : ℕ) : F :=
  total ((rowItems op (f2s n op.indices r)).map fun e => e.2 * (input[s2f n op.indices e.1 r]?).getD 0)

omit [Add F] [One F] [DecidableEq F] in
theorem colValue_full (n : ℕ) (idx : List ℕ) (row : ℕ) (hr : row < 2 ^ n) (input : List F) (hi : input.length = 2 ^ n)
    (e : ℕ × F) (h : ∀ i ∈ idx, i < n) :
    colValue n idx row 0 input e = some (e.2 * (input[s2f n idx e.1 row]?).getD 0) := by
  have hlt : s2f n idx e.1 row < input.length := by rw [hi]; exact s2f_lt n idx e.1 row hr h
  unfold colValue
  rw [subToFull_eq n idx e.1 row h]
  simp only [Option.bind_eq_bind, Option.bind_some]
  rw [show foldSet (s2fPairs n idx e.1) row = s2f n idx e.1 row from rfl]
  simp only [Nat.not_lt_zero, if_false, Nat.sub_zero, ge_iff_le, not_le.mpr hlt, List.getElem?_eq_getElem hlt,
    Option.getD_some]

theorem applyOpOverwrite_any (n : ℕ) (op : MatrixOp F) (hwf : op.WF) (hidx : ∀ i ∈ op.indices, i < n)
    (input output : List F) (hi : input.length = 2 ^ n) (ho : output.length = 2 ^ n) :
    applyOpOverwrite n op input output 0 0 = some ((List.range (2 ^ n)).map (rowTotal n op input)) := by
  unfold applyOpOverwrite
  simp only [matIndices_any op hwf, Option.bind_eq_bind, Option.bind_some]
  have : ∀ p ∈ output.zipIdx, applyOpRowIndices n op input p.2 0 0 op.indices = some (rowTotal n op input p.2) := by
    intro p hp
    have hp2 : p.2 < 2 ^ n := by
      rw [List.mem_zipIdx_iff_getElem?] at hp
      rw [← ho]; exact (List.getElem?_eq_some_iff.mp hp).1
    unfold applyOpRowIndices
    simp only [Nat.zero_add, fullToSub_eq n op.indices p.2 hidx, Option.bind_eq_bind, Option.bind_some, sumForOpCols]
    rw [show foldSet (f2sPairs n op.indices p.2) 0 = f2s n op.indices p.2 from rfl,
      items_rows op hwf _ (f2s_lt _ _ _)]
    simp only [Option.bind_some]
    rw [mapM_some _ _ _ (fun e _ => colValue_full n op.indices p.2 hp2 input hi e hidx)]
    rfl
  rw [mapM_some _ _ (fun p => rowTotal n op input p.2) this]
  congr 1
  apply List.ext_getElem
  · simp [ho]
  · intro i h1 h2
    simp

end
end Verif
