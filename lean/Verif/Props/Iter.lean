import Verif.Proofs.Iter2
import Mathlib.Algebra.Ring.Int.Defs

/-!
# C05–C09: row iterators

`drain next it = some (l, it')` says: calling `next` until it returns `None` yields exactly `l`, never
panics, ends, and leaves the iterator in state `it'`.
-/

namespace Verif.Props
open Verif

variable {K : Type}

/-! ## C05 -/

/-- C05 (dense). Exactly the nonzero entries of the row, in strictly increasing column order, then the
iterator is back in its initial state. -/
theorem C05_dense_row [Zero K] [DecidableEq K] (data : List K) (n row : ℕ)
    (h : (row + 1) * 2 ^ n ≤ data.length) :
    ∃ it l, MatIter.new row n data = some it ∧ drain MatIter.next it = some (l, it) ∧
      (l.map Prod.fst).Pairwise (· < ·) ∧
      ∀ c v, (c, v) ∈ l ↔ c < 2 ^ n ∧ v ≠ 0 ∧ data[row * 2 ^ n + c]? = some v := by
  refine ⟨_, _, mat_new data n row h, drain_mat_row data n row h, ?_, ?_⟩
  · have hsub : List.Sublist ((nzItems (denseRow data n row) 0).map Prod.fst)
        (((denseRow data n row).zipIdx 0).map Prod.snd) := by
      rw [nzItems, List.map_map]
      exact (List.filter_sublist (l := (denseRow data n row).zipIdx 0)).map Prod.snd
    apply List.Pairwise.sublist hsub
    rw [List.zipIdx_map_snd]
    exact List.pairwise_lt_range'
  · intro c v
    have hlen := denseRow_length data n row h
    simp only [nzItems, List.mem_map, List.mem_filter, decide_eq_true_eq, Prod.exists, Prod.mk.injEq]
    constructor
    · rintro ⟨a, b, ⟨hm, hne⟩, rfl, rfl⟩
      rw [List.mem_zipIdx_iff_getElem?] at hm
      simp only at hm
      have hlt : b < 2 ^ n := by
        rw [← hlen]
        exact (List.getElem?_eq_some_iff.mp hm).1
      refine ⟨hlt, hne, ?_⟩
      rw [denseRow, List.getElem?_take_of_lt hlt, List.getElem?_drop] at hm
      exact hm
    · rintro ⟨hlt, hne, hv⟩
      refine ⟨v, c, ⟨?_, hne⟩, rfl, rfl⟩
      rw [List.mem_zipIdx_iff_getElem?]
      simp only
      rw [denseRow, List.getElem?_take_of_lt hlt, List.getElem?_drop]
      exact hv

/-- C05 (dense). A row that is not inside the data is a panic. -/
theorem C05_dense_row_panics (data : List K) (n row : ℕ) (h : data.length < (row + 1) * 2 ^ n) :
    MatIter.new row n data = none := by
  have h2 : getFlatIndex n row (1 <<< n) = (row + 1) * 2 ^ n := by
    simp [getFlatIndex, Nat.one_shiftLeft, Nat.succ_mul]
  simp [MatIter.new, slice, h2, Nat.not_le.mpr h]

/-- C05 (sparse). Exactly the stored pairs, in order, then the initial state again. -/
theorem C05_sparse_row (data : List (List (ℕ × K))) (row : ℕ) (h : row < data.length) :
    ∃ it, SparseIter.new row data = some it ∧ drain SparseIter.next it = some (data[row], it) := by
  refine ⟨{ data := data[row], lastIndex := none }, by simp [SparseIter.new, h], ?_⟩
  have := drain_sparse [] data[row] none rfl
  simpa using this

/-- C05 (sparse). A row outside the data is a panic. -/
theorem C05_sparse_row_panics (data : List (List (ℕ × K))) (row : ℕ) (h : data.length ≤ row) :
    SparseIter.new row data = none := by
  simp [SparseIter.new, h]

/-- instance: second row of `[[0,3],[5,0]]` yields only `(0,5)` -/
example : ∃ it l, MatIter.new 1 1 ([0, 3, 5, 0] : List ℤ) = some it ∧ drain MatIter.next it = some (l, it) ∧
    (0, 5) ∈ l ∧ ∀ v, (1, v) ∉ l := by
  obtain ⟨it, l, h1, h2, _, h4⟩ := C05_dense_row ([0, 3, 5, 0] : List ℤ) 1 1 (by decide)
  refine ⟨it, l, h1, h2, (h4 0 5).mpr (by decide), ?_⟩
  intro v hv
  obtain ⟨_, hne, hd⟩ := (h4 1 v).mp hv
  simp at hd
  exact hne hd.symm

/-! ## C06 -/

/-- the control bits (the `nc` bits above the `no` op bits) of `row` are all one -/
def ControlsOn (nc no row : ℕ) : Prop := ∀ i, i < nc → row.testBit (no + i) = true

/-- All control bits are one exactly when the row is in the last block. -/
theorem controlsOn_iff (nc no row : ℕ) (h : row < 2 ^ (nc + no)) :
    ControlsOn nc no row ↔ 2 ^ (nc + no) - 2 ^ no ≤ row := by
  have hp : 0 < 2 ^ no := Nat.two_pow_pos no
  have hq : row / 2 ^ no < 2 ^ nc := by
    rw [Nat.div_lt_iff_lt_mul hp, ← Nat.pow_add]; exact h
  have e1 : 2 ^ (nc + no) - 2 ^ no = (2 ^ nc - 1) * 2 ^ no := by
    rw [Nat.sub_mul, Nat.one_mul, Nat.pow_add]
  rw [e1, ← Nat.le_div_iff_mul_le hp]
  have e2 : (2 ^ nc - 1 ≤ row / 2 ^ no) ↔ row / 2 ^ no = 2 ^ nc - 1 := by omega
  rw [e2]
  constructor
  · intro hc
    apply Nat.eq_of_testBit_eq
    intro i
    rw [Nat.testBit_two_pow_sub_one]
    by_cases hi : i < nc
    · have := hc i hi
      rw [Nat.testBit_div_two_pow]
      simp [hi, Nat.add_comm i no, this]
    · simp only [hi, decide_false]
      exact Nat.testBit_lt_two_pow (lt_of_lt_of_le hq (Nat.pow_le_pow_right (by norm_num) (by omega)))
  · intro he i hi
    have : (row / 2 ^ no).testBit i = true := by rw [he, Nat.testBit_two_pow_sub_one]; simp [hi]
    rw [Nat.testBit_div_two_pow] at this
    rw [Nat.add_comm]; exact this

/-- C06. Controls not all one: exactly `(row, 1)`, then the initial state again; the inner iterator is never
built. -/
theorem C06_controls_off {σ : Type} [One K] (inner : σ → Option (Option (ℕ × K) × σ))
    (build : ℕ → Option σ) (nc no row : ℕ) (h : row < 2 ^ (nc + no)) (hc : ¬ ControlsOn nc no row) :
    ∃ it, CtrlIter.new row nc no build = some it ∧
      drain (CtrlIter.next inner) it = some ([(row, 1)], it) := by
  rw [controlsOn_iff nc no row h] at hc
  refine ⟨{ row := row, indexThreshold := 2 ^ (nc + no) - 2 ^ no, opIter := none, lastCol := none }, ?_,
    drain_ctrl_off row _⟩
  simp only [CtrlIter.new, Nat.one_shiftLeft, ge_iff_le, hc, if_false]

/-- C06. Controls all one: the inner op's row (number `row mod 2^no`), columns moved into the last block. -/
theorem C06_controls_on {σ : Type} [One K] (inner : σ → Option (Option (ℕ × K) × σ))
    (build : ℕ → Option σ) (nc no row : ℕ) (h : row < 2 ^ (nc + no)) (hc : ControlsOn nc no row)
    (s s' : σ) (l : List (ℕ × K)) (hb : build (row % 2 ^ no) = some s) (hd : drain inner s = some (l, s')) :
    ∃ it it', CtrlIter.new row nc no build = some it ∧
      drain (CtrlIter.next inner) it =
        some (l.map (fun e => ((2 ^ nc - 1) * 2 ^ no + e.1, e.2)), it') ∧ (s' = s → it' = it) := by
  rw [controlsOn_iff nc no row h] at hc
  have e1 : 2 ^ (nc + no) - 2 ^ no = (2 ^ nc - 1) * 2 ^ no := by
    rw [Nat.sub_mul, Nat.one_mul, Nat.pow_add]
  have hmod : row - (2 ^ (nc + no) - 2 ^ no) = row % 2 ^ no := by
    have hlt : row - (2 ^ (nc + no) - 2 ^ no) < 2 ^ no := by
      have : 2 ^ no ≤ 2 ^ (nc + no) := Nat.pow_le_pow_right (by norm_num) (by omega)
      omega
    have : row = (row - (2 ^ (nc + no) - 2 ^ no)) + (2 ^ nc - 1) * 2 ^ no := by rw [← e1]; omega
    conv_rhs => rw [this, Nat.add_mul_mod_self_right, Nat.mod_eq_of_lt hlt]
  refine ⟨{ row := row, indexThreshold := 2 ^ (nc + no) - 2 ^ no, opIter := some s, lastCol := none },
    { row := row, indexThreshold := 2 ^ (nc + no) - 2 ^ no, opIter := some s', lastCol := none }, ?_, ?_, ?_⟩
  · simp only [CtrlIter.new, Nat.one_shiftLeft, ge_iff_le, hc, if_true, hmod, hb, Option.map_some]
  · rw [drain_ctrl_on row _ s s' l none hd, e1]
    simp [Nat.add_comm]
  · rintro rfl; rfl

/-- instance: 2 controls, 1 op qubit; row 7 = 0b111 has controls on, row 5 = 0b101 has not -/
example : ControlsOn 2 1 7 ∧ ¬ ControlsOn 2 1 5 := by
  constructor
  · rw [controlsOn_iff _ _ _ (by decide)]; decide
  · rw [controlsOn_iff _ _ _ (by decide)]; decide

/-! ## C07 -/

/-- C07. One item with value 1 whose column is the row with the two `h`-bit halves exchanged. -/
theorem C07_swap_row [One K] (h row : ℕ) (hr : row < 2 ^ (2 * h)) :
    ∃ col, drain (SwapIter.next (K := K)) (SwapIter.new row (2 * h)) = some ([(col, 1)], SwapIter.new row (2 * h)) ∧
      col < 2 ^ (2 * h) ∧
      (∀ i, i < h → col.testBit i = row.testBit (h + i) ∧ col.testBit (h + i) = row.testBit i) := by
  refine ⟨swapHalves h row, ?_, ?_, ?_⟩
  · have := drain_swap (K := K) row (2 * h)
    rwa [show 2 * h / 2 = h by omega] at this
  · have h1 : row / 2 ^ h < 2 ^ h := by
      rw [Nat.div_lt_iff_lt_mul (Nat.two_pow_pos _), ← Nat.pow_add]
      rwa [show h + h = 2 * h by omega]
    have h2 : row % 2 ^ h < 2 ^ h := Nat.mod_lt _ (Nat.two_pow_pos _)
    unfold swapHalves
    calc row % 2 ^ h * 2 ^ h + row / 2 ^ h < row % 2 ^ h * 2 ^ h + 2 ^ h := by omega
      _ = (row % 2 ^ h + 1) * 2 ^ h := by ring
      _ ≤ 2 ^ h * 2 ^ h := Nat.mul_le_mul_right _ h2
      _ = 2 ^ (2 * h) := by rw [← Nat.pow_add]; congr 1; omega
  · intro i hi
    have h1 : row / 2 ^ h < 2 ^ h := by
      rw [Nat.div_lt_iff_lt_mul (Nat.two_pow_pos _), ← Nat.pow_add]
      rwa [show h + h = 2 * h by omega]
    unfold swapHalves
    rw [Nat.mul_comm, Nat.testBit_two_pow_mul_add _ h1, Nat.testBit_two_pow_mul_add _ h1]
    simp only [hi, if_true, show ¬ (h + i < h) by omega, if_false]
    constructor
    · rw [Nat.testBit_div_two_pow, Nat.add_comm]
    · rw [Nat.testBit_mod_two_pow]; simp [hi]

/-- C07. exchanging twice is the identity (so the swap matrix is a symmetric permutation matrix). -/
theorem C07_swap_involution [One K] (h row : ℕ) (hr : row < 2 ^ (2 * h)) :
    ∃ col, drain (SwapIter.next (K := K)) (SwapIter.new row (2 * h)) = some ([(col, 1)], SwapIter.new row (2 * h)) ∧
      drain (SwapIter.next (K := K)) (SwapIter.new col (2 * h)) = some ([(row, 1)], SwapIter.new col (2 * h)) := by
  obtain ⟨col, h1, h2, h3⟩ := C07_swap_row (K := K) h row hr
  obtain ⟨col', h1', h2', h3'⟩ := C07_swap_row (K := K) h col h2
  refine ⟨col, h1, ?_⟩
  rw [h1']
  have : col' = row := by
    apply Nat.eq_of_testBit_eq
    intro i
    by_cases hi : i < h
    · rw [(h3' i hi).1, (h3 i hi).2]
    · by_cases hi2 : i < 2 * h
      · obtain ⟨j, rfl⟩ : ∃ j, i = h + j := ⟨i - h, by omega⟩
        rw [(h3' j (by omega)).2, (h3 j (by omega)).1]
      · rw [Nat.testBit_lt_two_pow (lt_of_lt_of_le h2' (Nat.pow_le_pow_right (by norm_num) (by omega))),
          Nat.testBit_lt_two_pow (lt_of_lt_of_le hr (Nat.pow_le_pow_right (by norm_num) (by omega)))]
  rw [this]

/-- instance: row 0b1101 of a 2+2 qubit swap -/
example : ∃ col, drain (SwapIter.next (K := ℤ)) (SwapIter.new 13 4) = some ([(col, 1)], SwapIter.new 13 4) ∧
    drain (SwapIter.next (K := ℤ)) (SwapIter.new col 4) = some ([(13, 1)], SwapIter.new col 4) :=
  C07_swap_involution 2 13 (by decide)

/-! ## C08 -/

/-- C08. Row `x·2^o + y` yields exactly one item: the column has the same `x` part, and its low part is
`y` xor the (bit reversed) value `f` takes at the (bit reversed) `x`; the value is `f`'s phase there.
`revx`/`fx` are pinned down bit by bit. -/
theorem C08_function_row (f : ℕ → ℕ × K) (i o x y : ℕ) (hi : 1 ≤ i) (hi' : i ≤ 64) (ho : 1 ≤ o) (ho' : o ≤ 64)
    (hx : x < 2 ^ i) (hy : y < 2 ^ o) :
    ∃ it z revx, FnIter.new (x * 2 ^ o + y) i o f = some it ∧
      drain FnIter.next it = some ([(x * 2 ^ o + z, (f revx).2)], it) ∧
      revx < 2 ^ i ∧ (∀ b, b < i → revx.testBit b = x.testBit (i - 1 - b)) ∧
      z < 2 ^ o ∧ (∀ b, b < o → z.testBit b = (y.testBit b ^^ (f revx).1.testBit (o - 1 - b))) := by
  obtain ⟨it, h1, h2⟩ := drain_fn (x * 2 ^ o + y) i o f hi hi' ho ho'
  have hd : (x * 2 ^ o + y) / 2 ^ o = x := by
    rw [Nat.mul_comm, Nat.mul_add_div (Nat.two_pow_pos _), Nat.div_eq_of_lt hy, Nat.add_zero]
  have hm : (x * 2 ^ o + y) % 2 ^ o = y := by
    rw [Nat.mul_comm, Nat.mul_add_mod, Nat.mod_eq_of_lt hy]
  refine ⟨it, y ^^^ rev o (f (rev i x)).1, rev i x, h1, ?_, rev_lt _ _, ?_, xor_lt _ _ _ hy (rev_lt _ _), ?_⟩
  · rw [h2, fnCol, hd, hm]
  · intro b hb; rw [testBit_rev, if_pos hb]
  · intro b hb; rw [Nat.testBit_xor, testBit_rev, if_pos hb]

/-- C08. The row → column map is an involution: the column's own row leads back. -/
theorem C08_function_involution (f : ℕ → ℕ × K) (i o row : ℕ) (hi : 1 ≤ i) (hi' : i ≤ 64) (ho : 1 ≤ o)
    (ho' : o ≤ 64) :
    ∃ it it' col v, FnIter.new row i o f = some it ∧ drain FnIter.next it = some ([(col, v)], it) ∧
      FnIter.new col i o f = some it' ∧ drain FnIter.next it' = some ([(row, v)], it') := by
  obtain ⟨it, h1, h2⟩ := drain_fn row i o f hi hi' ho ho'
  obtain ⟨it', h1', h2'⟩ := drain_fn (fnCol i o (fun x => (f x).1) row) i o f hi hi' ho ho'
  rw [fnCol_fnCol, fnCol_div] at h2'
  exact ⟨it, it', _, _, h1, h2, h1', h2'⟩

/-- C08. With an empty input or output register the constructor panics (`flip_bits` with 0 bits). -/
theorem C08_function_panics (f : ℕ → ℕ × K) (i o row : ℕ) (h : i = 0 ∨ o = 0) :
    FnIter.new row i o f = none := by
  unfold FnIter.new
  rcases h with rfl | rfl
  · simp [flipBits]
  · have h0 : ∀ x, flipBits 0 x = none := by intro x; simp [flipBits]
    cases flipBits i (row >>> 0) <;> simp [h0]

example : ∃ it it' col v, FnIter.new 5 2 1 (fun x => (x, (x : ℤ))) = some it ∧
    drain FnIter.next it = some ([(col, v)], it) ∧
    FnIter.new col 2 1 (fun x => (x, (x : ℤ))) = some it' ∧ drain FnIter.next it' = some ([(5, v)], it') :=
  C08_function_involution _ 2 1 5 (by norm_num) (by norm_num) (by norm_num) (by norm_num)

/-! ## C09 -/

/-- C09. The multi-op iterator yields, for every choice of one entry per op, in lexicographic order, the
concatenated column (first op most significant) and the product of the values; then it is back in its
initial state. -/
theorem C09_multi [Monoid K] (ns : List ℕ) (outs : List (List (ℕ × K))) (hlen : ns.length = outs.length)
    (hne : ∀ l ∈ outs, l ≠ []) (hcol : ∀ p ∈ ns.zip outs, ∀ e ∈ p.2, e.1 < 2 ^ p.1) :
    drain MultiIter.next (MultiIter.new ns outs) =
      some ((combos outs).map (fun c => (concatCol ns c, (c.map Prod.snd).prod)), MultiIter.new ns outs) := by
  rw [drain_multi_new ns outs hlen hne]
  congr 2
  apply List.map_congr_left
  intro c hc
  rw [mem_combos] at hc
  have hl : c.length = outs.length := hc.length_eq
  rw [combine_eq K ns c (0, 1) (by omega)]
  · simp
  · clear hne
    induction outs generalizing ns c with
    | nil =>
      cases hc
      intro p hp; simp at hp
    | cons l ls ih =>
      cases hc with
      | cons h1 h2 =>
        cases ns with
        | nil => intro p hp; simp at hp
        | cons n ns =>
          intro p hp
          rw [List.zip_cons_cons, List.mem_cons] at hp
          rcases hp with rfl | hp
          · exact hcol (n, l) (by simp) _ h1
          · exact ih ns (by simpa using hlen) (fun p hp => hcol p (by simp [hp])) _ h2
              h2.length_eq p hp

/-- C09. Each combination occurs: the choices are exactly the lists picking one entry per op, and their number
is the product of the list lengths. -/
theorem C09_combos_exhaustive (outs : List (List (ℕ × K))) :
    (∀ c, c ∈ combos outs ↔ List.Forall₂ (fun e l => e ∈ l) c outs) ∧
    (combos outs).length = (outs.map List.length).prod :=
  ⟨mem_combos outs, length_combos outs⟩

/-- C09. If some op has no entry in its row the first `next` panics. -/
theorem C09_empty_panics [Mul K] [One K] (ns : List ℕ) (outs : List (List (ℕ × K)))
    (hlen : ns.length = outs.length) (h : [] ∈ outs) :
    MultiIter.next (MultiIter.new ns outs) = none := by
  have key : ∀ (ns : List ℕ) (outs : List (List (ℕ × K))) (acc : ℕ × K), ns.length = outs.length → [] ∈ outs →
      multiItem (((ns.map fun _ => 0).zip ns).zip outs) acc = none := by
    intro ns outs
    induction outs generalizing ns with
    | nil => intro _ _ h; simp at h
    | cons l ls ih =>
      intro acc hl hm
      cases ns with
      | nil => simp at hl
      | cons n ns =>
        simp only [List.map_cons, List.zip_cons_cons, multiItem]
        cases l with
        | nil => rfl
        | cons e l =>
          simp only [List.getElem?_cons_zero]
          exact ih ns _ (by simpa using hl) (by simpa using hm)
  simp only [MultiIter.next, MultiIter.new, key ns outs (0, 1) hlen h, Bool.false_eq_true, if_false]

example : drain MultiIter.next (MultiIter.new [1, 2] [[(0, (2 : ℤ)), (1, 3)], [(2, 5)]]) =
    some ([(2, 10), (6, 15)], MultiIter.new [1, 2] [[(0, 2), (1, 3)], [(2, 5)]]) := by
  rw [C09_multi [1, 2] [[(0, (2 : ℤ)), (1, 3)], [(2, 5)]] rfl (by decide) (by decide)]
  rfl

end Verif.Props
