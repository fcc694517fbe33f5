import Verif.Model.Iter
import Verif.Proofs.Words
import Mathlib.Data.List.ProdSigma

namespace Verif

section drain
variable {σ α : Type} {next : σ → Option (Option α × σ)}

theorem drain_done {s s' : σ} (h : next s = some (none, s')) : drain next s = some ([], s') := by
  rw [drain, h]

theorem drain_step {s s' s'' : σ} {a : α} {l : List α} (h : next s = some (some a, s'))
    (hd : drain next s' = some (l, s'')) : drain next s = some (a :: l, s'') := by
  rw [drain, h]; simp [hd]

end drain

variable {K : Type}

/-- nonzero entries of a row with their columns, counted from `p` -/
def nzItems [Zero K] [DecidableEq K] (d : List K) (p : ℕ) : List (ℕ × K) :=
  ((d.zipIdx p).filter (fun e => decide (e.1 ≠ 0))).map (fun e => (e.2, e.1))

section mat
variable [Zero K] [DecidableEq K]

theorem nzItems_cons (v : K) (d : List K) (p : ℕ) :
    nzItems (v :: d) p = if v ≠ 0 then (p, v) :: nzItems d (p + 1) else nzItems d (p + 1) := by
  by_cases h : v = 0 <;> simp [nzItems, List.zipIdx_cons, h]

theorem matScan_spec (pre l : List K) :
    matScan (pre ++ l) (List.range' pre.length l.length) = some ((nzItems l pre.length).head?) := by
  induction l generalizing pre with
  | nil => simp [matScan, nzItems]
  | cons v l ih =>
    rw [List.length_cons, List.range'_succ, matScan]
    have : (pre ++ v :: l)[pre.length]? = some v := by simp
    rw [this, nzItems_cons]
    by_cases h : v = 0
    · have := ih (pre ++ [v])
      simp only [List.append_assoc, List.singleton_append, List.length_append, List.length_singleton] at this
      simp [h]
      simpa [h] using this
    · simp [h]

theorem matScan_none (pre l : List K) (h : nzItems l pre.length = []) :
    matScan (pre ++ l) (List.range' pre.length l.length) = some none := by
  rw [matScan_spec, h]; rfl

/-- if the scan finds an item, the remaining items are those after it -/
theorem nzItems_split (l : List K) (p : ℕ) (e : ℕ × K) (rest : List (ℕ × K)) (h : nzItems l p = e :: rest) :
    ∃ pre post, l = pre ++ e.2 :: post ∧ e.1 = p + pre.length ∧ rest = nzItems post (e.1 + 1) := by
  induction l generalizing p with
  | nil => simp [nzItems] at h
  | cons v l ih =>
    rw [nzItems_cons] at h
    by_cases hv : v = 0
    · simp [hv] at h
      obtain ⟨pre, post, h1, h2, h3⟩ := ih (p + 1) h
      exact ⟨v :: pre, post, by simp [h1], by simp [h2]; omega, h3⟩
    · simp [hv] at h
      obtain ⟨h1, h2⟩ := h
      subst h1
      exact ⟨[], l, by simp, by simp, h2.symm⟩

theorem drain_mat (n : ℕ) (pre l : List K) (lc : Option ℕ)
    (hlen : pre.length + l.length = 2 ^ n)
    (hlc : nextPos lc = pre.length) :
    drain MatIter.next { n := n, data := pre ++ l, lastCol := lc } =
      some (nzItems l pre.length, { n := n, data := pre ++ l, lastCol := none }) := by
  have hcnt : (1 <<< n) - pre.length = l.length := by rw [Nat.one_shiftLeft]; omega
  match hit : nzItems l pre.length with
  | [] =>
    apply drain_done
    simp only [MatIter.next, hlc, hcnt, matScan_none pre l hit]
  | e :: rest =>
    obtain ⟨pre', post, h1, h2, h3⟩ := nzItems_split l pre.length e rest hit
    apply drain_step (s' := { n := n, data := pre ++ l, lastCol := some e.1 }) (a := e)
    · simp only [MatIter.next, hlc, hcnt, matScan_spec, hit]
      rfl
    · have hdata : pre ++ l = (pre ++ pre' ++ [e.2]) ++ post := by simp [h1]
      have hpl : (pre ++ pre' ++ [e.2]).length = e.1 + 1 := by simp [h2]; omega
      have := drain_mat n (pre ++ pre' ++ [e.2]) post (some e.1)
        (by rw [hpl]; have := congrArg List.length h1; simp at this; omega)
        (by rw [hpl, nextPos])
      rw [hdata, this, hpl, h3]
termination_by l.length
decreasing_by
  subst h1
  simp
  omega

theorem slice_row (data : List K) (n row : ℕ) (h : (row + 1) * 2 ^ n ≤ data.length) :
    slice data (getFlatIndex n row 0) (getFlatIndex n row (1 <<< n)) =
      some ((data.drop (row * 2 ^ n)).take (2 ^ n)) := by
  have h1 : getFlatIndex n row 0 = row * 2 ^ n := by simp [getFlatIndex, Nat.one_shiftLeft]
  have h2 : getFlatIndex n row (1 <<< n) = row * 2 ^ n + 2 ^ n := by simp [getFlatIndex, Nat.one_shiftLeft]
  rw [h1, h2, slice, if_pos ⟨Nat.le_add_right _ _, by rw [Nat.succ_mul] at h; exact h⟩]
  rw [List.drop_take]
  rw [Nat.add_sub_cancel_left]

/-- row `row` of a flat `2^n × 2^n` matrix -/
def denseRow (data : List K) (n row : ℕ) : List K := (data.drop (row * 2 ^ n)).take (2 ^ n)

theorem denseRow_length (data : List K) (n row : ℕ) (h : (row + 1) * 2 ^ n ≤ data.length) :
    (denseRow data n row).length = 2 ^ n := by
  rw [Nat.succ_mul] at h
  simp [denseRow]; omega

theorem mat_new (data : List K) (n row : ℕ) (h : (row + 1) * 2 ^ n ≤ data.length) :
    MatIter.new row n data = some { n := n, data := denseRow data n row, lastCol := none } := by
  simp [MatIter.new, slice_row data n row h, denseRow]

theorem drain_mat_row (data : List K) (n row : ℕ) (h : (row + 1) * 2 ^ n ≤ data.length) :
    drain MatIter.next { n := n, data := denseRow data n row, lastCol := none } =
      some (nzItems (denseRow data n row) 0, { n := n, data := denseRow data n row, lastCol := none }) := by
  have := drain_mat n [] (denseRow data n row) none (by simp [denseRow_length data n row h]) rfl
  simpa using this

end mat

section sparse

theorem drain_sparse (pre l : List (ℕ × K)) (lc : Option ℕ)
    (hlc : nextPos lc = pre.length) :
    drain SparseIter.next { data := pre ++ l, lastIndex := lc } =
      some (l, { data := pre ++ l, lastIndex := none }) := by
  induction l generalizing pre lc with
  | nil =>
    apply drain_done
    simp [SparseIter.next, hlc]
  | cons e l ih =>
    apply drain_step (s' := { data := pre ++ e :: l, lastIndex := some pre.length })
    · simp [SparseIter.next, hlc]
    · have := ih (pre ++ [e]) (some pre.length) (by simp [nextPos])
      simpa using this

end sparse

section ctrl
variable {σ : Type} [One K] {inner : σ → Option (Option (ℕ × K) × σ)}

theorem drain_ctrl_off (row thr : ℕ) :
    drain (CtrlIter.next inner) { row := row, indexThreshold := thr, opIter := none, lastCol := none } =
      some ([(row, 1)], { row := row, indexThreshold := thr, opIter := none, lastCol := none }) := by
  apply drain_step (s' := { row := row, indexThreshold := thr, opIter := none, lastCol := some row })
  · simp [CtrlIter.next]
  · apply drain_done
    simp [CtrlIter.next]

theorem drain_ctrl_on (row thr : ℕ) (s s' : σ) (l : List (ℕ × K)) (lc : Option ℕ)
    (h : drain inner s = some (l, s')) :
    drain (CtrlIter.next inner) { row := row, indexThreshold := thr, opIter := some s, lastCol := lc } =
      some (l.map (fun e => (e.1 + thr, e.2)),
        { row := row, indexThreshold := thr, opIter := some s', lastCol := none }) := by
  induction l generalizing s lc with
  | nil =>
    rw [drain] at h
    match hn : inner s with
    | none => simp [hn] at h
    | some (none, t) =>
      simp only [hn] at h
      simp at h
      subst h
      apply drain_done
      simp [CtrlIter.next, hn]
    | some (some a, t) =>
      simp only [hn] at h
      match hd : drain inner t with
      | none => simp [hd] at h
      | some r => simp [hd] at h
  | cons e l ih =>
    rw [drain] at h
    match hn : inner s with
    | none => simp [hn] at h
    | some (none, t) => simp [hn] at h
    | some (some a, t) =>
      simp only [hn] at h
      match hd : drain inner t with
      | none => simp [hd] at h
      | some r =>
        simp [hd] at h
        obtain ⟨⟨h1, h2⟩, h3⟩ := h
        subst h1 h2 h3
        apply drain_step (s' := { row := row, indexThreshold := thr, opIter := some t, lastCol := some (a.1 + thr) })
        · simp [CtrlIter.next, hn]
        · exact ih t _ hd

end ctrl

section swap
variable [One K]

/-- exchange the high and the low `h` bits -/
def swapHalves (h row : ℕ) : ℕ := (row % 2 ^ h) * 2 ^ h + row / 2 ^ h

theorem drain_swap (row n : ℕ) :
    drain (SwapIter.next (K := K)) (SwapIter.new row n) =
      some ([(swapHalves (n / 2) row, 1)], SwapIter.new row n) := by
  have hcol : ((row &&& ((1 <<< (n >>> 1)) - 1)) <<< (n >>> 1)) + row >>> (n >>> 1) = swapHalves (n / 2) row := by
    rw [Nat.one_shiftLeft, Nat.and_two_pow_sub_one_eq_mod, Nat.shiftLeft_eq, Nat.shiftRight_eq_div_pow row]
    simp [swapHalves, Nat.shiftRight_eq_div_pow]
  apply drain_step (s' := { SwapIter.new row n with lastCol := some (swapHalves (n / 2) row) })
  · simp only [SwapIter.next, SwapIter.new, Option.map_some, hcol]
  · apply drain_done
    simp [SwapIter.next, SwapIter.new]

end swap

end Verif
