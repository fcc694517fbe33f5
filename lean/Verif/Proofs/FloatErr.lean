import Verif.Model.Float
import Verif.Spec.Float
import Verif.Proofs.Rows
import Verif.Proofs.Ops
import Mathlib.Algebra.Order.Chebyshev
import Mathlib.Analysis.InnerProductSpace.PiL2

namespace Verif
open MatrixOp Finset

section sums
variable {F : Type} [Zero F] [One F] [Add F] [Mul F] {val : F → ℂ} {u : ℝ}

/-- a computed term, its exact value and a bound for its size -/
structure Term (val : F → ℂ) (g : ℝ) (t : F) (z : ℂ) (a : ℝ) : Prop where
  size : ‖z‖ ≤ a
  err : ‖val t - z‖ ≤ (g - 1) * a

theorem Term.nonneg {g : ℝ} {t : F} {z : ℂ} {a : ℝ} (h : Term val g t z a) : 0 ≤ a := (norm_nonneg _).trans h.size

theorem Term.add (R : Rounds val u) {g G : ℝ} (hg : g ≤ G) (hG : 0 ≤ G) {s t : F} {S z : ℂ} {A a : ℝ} (hs : Term val G s S A)
    (ht : Term val g t z a) : Term val (G * (1 + u)) (s + t) (S + z) (A + a) := by
  have hA := hs.nonneg
  have ha := ht.nonneg
  refine ⟨(norm_add_le _ _).trans (add_le_add hs.size ht.size), ?_⟩
  have e1 : ‖val s + val t - (S + z)‖ ≤ (G - 1) * A + (g - 1) * a := by
    have : val s + val t - (S + z) = (val s - S) + (val t - z) := by ring
    rw [this]
    exact (norm_add_le _ _).trans (add_le_add hs.err ht.err)
  have e2 : ‖val s + val t‖ ≤ G * A + g * a := by
    have : val s + val t = (val s + val t - (S + z)) + (S + z) := by ring
    rw [this]
    refine (norm_add_le _ _).trans ?_
    have := (norm_add_le S z).trans (add_le_add hs.size ht.size)
    nlinarith
  have e3 : val (s + t) - (S + z) = (val (s + t) - (val s + val t)) + (val s + val t - (S + z)) := by ring
  rw [e3]
  refine (norm_add_le _ _).trans ?_
  have e4 := R.add s t
  have hga : g * a ≤ G * a := mul_le_mul_of_nonneg_right hg ha
  have := mul_le_mul_of_nonneg_left e2 R.nonneg
  nlinarith [mul_le_mul_of_nonneg_left hga R.nonneg]

theorem Term.foldl (R : Rounds val u) {g : ℝ} (hg : 1 ≤ g) {α : Type} (l : List α) (t : α → F) (z : α → ℂ) (a : α → ℝ)
    (h : ∀ x ∈ l, Term val g (t x) (z x) (a x)) {G : ℝ} (hG : g ≤ G) {s : F} {S : ℂ} {A : ℝ} (hs : Term val G s S A) :
    Term val (G * (1 + u) ^ l.length) ((l.map t).foldl (· + ·) s) (S + (l.map z).sum) (A + (l.map a).sum) := by
  induction l generalizing G s S A with
  | nil => simpa using hs
  | cons x l ih =>
    have hu := R.nonneg
    have h1 := Term.add R hG (by linarith) hs (h x (by simp))
    have h2 := ih (fun y hy => h y (by simp [hy])) (G := G * (1 + u)) (by nlinarith) h1
    simp only [List.map_cons, List.foldl_cons, List.sum_cons, List.length_cons]
    have e : G * (1 + u) ^ (l.length + 1) = G * (1 + u) * (1 + u) ^ l.length := by ring
    rw [e, ← add_assoc, ← add_assoc]
    exact h2

/-- the sum of `l` terms, added from left to right from zero -/
theorem Term.total (R : Rounds val u) {g : ℝ} (hg : 1 ≤ g) {α : Type} (l : List α) (t : α → F) (z : α → ℂ) (a : α → ℝ)
    (h : ∀ x ∈ l, Term val g (t x) (z x) (a x)) (T : ℕ) (hT : l.length ≤ T + 1) :
    Term val (g * (1 + u) ^ T) (MatrixOp.total (l.map t)) (l.map z).sum (l.map a).sum := by
  have hu := R.nonneg
  have hp : ∀ k, 1 ≤ (1 + u) ^ k := fun k => one_le_pow₀ (by linarith)
  cases l with
  | nil =>
    refine ⟨by simp, ?_⟩
    simp [MatrixOp.total, R.val_zero]
  | cons x l =>
    have hx := h x (by simp)
    have h1 := Term.foldl R hg l t z a (fun y hy => h y (by simp [hy])) le_rfl hx
    simp only [List.map_cons, List.sum_cons, MatrixOp.total, List.foldl_cons, R.zero_add]
    refine ⟨h1.size, h1.err.trans (mul_le_mul_of_nonneg_right ?_ h1.nonneg)⟩
    have : (1 + u) ^ l.length ≤ (1 + u) ^ T := pow_le_pow_right₀ (by linarith) (by simpa using hT)
    have := mul_le_mul_of_nonneg_left this (by linarith : 0 ≤ g)
    linarith

theorem Term.mul (R : Rounds val u) {m x : F} {z : ℂ} (h : Near val u m z) :
    Term val ((1 + u) ^ 2) (m * x) (z * val x) (‖z‖ * ‖val x‖) := by
  have hu := R.nonneg
  refine ⟨(norm_mul z _).le, ?_⟩
  have e1 : ‖val m‖ ≤ (1 + u) * ‖z‖ := by
    have : val m = (val m - z) + z := by ring
    rw [this]
    refine (norm_add_le _ _).trans ?_
    have : ‖val m - z‖ ≤ u * ‖z‖ := h
    linarith
  have e2 : val (m * x) - z * val x = (val (m * x) - val m * val x) + (val m - z) * val x := by ring
  rw [e2]
  refine (norm_add_le _ _).trans ?_
  have e3 := R.mul m x
  rw [norm_mul] at e3
  rw [norm_mul]
  have e4 : ‖val m - z‖ * ‖val x‖ ≤ u * ‖z‖ * ‖val x‖ := mul_le_mul_of_nonneg_right h (norm_nonneg _)
  have e5 : u * (‖val m‖ * ‖val x‖) ≤ u * ((1 + u) * ‖z‖ * ‖val x‖) :=
    mul_le_mul_of_nonneg_left (mul_le_mul_of_nonneg_right e1 (norm_nonneg _)) hu
  nlinarith

end sums

section rows
variable {F : Type} [Zero F] [One F] [Add F] [Mul F] [DecidableEq F] {val : F → ℂ} {u : ℝ}

theorem Near.zero_iff (R : Rounds val u) {a : F} {z : ℂ} (h : Near val u a z) : a = 0 ↔ z = 0 := by
  constructor
  · rintro rfl
    have : ‖val 0 - z‖ ≤ u * ‖z‖ := h
    rw [R.val_zero, zero_sub, norm_neg] at this
    by_contra hz
    have h1 : 0 < ‖z‖ := norm_pos_iff.mpr hz
    nlinarith [R.lt_one]
  · rintro rfl
    have : ‖val a - 0‖ ≤ u * ‖(0 : ℂ)‖ := h
    simp at this
    exact R.val_inj_zero a this

theorem Near.one (R : Rounds val u) : Near val u (1 : F) 1 := by
  show ‖val 1 - 1‖ ≤ _
  rw [R.val_one]; simp [R.nonneg]

/-- item lists that agree up to the stored entries -/
abbrev SameItems (val : F → ℂ) (u : ℝ) : List (ℕ × F) → List (ℕ × ℂ) → Prop :=
  List.Forall₂ fun e e' => e.1 = e'.1 ∧ Near val u e.2 e'.2

open Classical in
theorem nzItems_same (R : Rounds val u) {d : List F} {d' : List ℂ} (h : List.Forall₂ (Near val u) d d') (p : ℕ) :
    SameItems val u (nzItems d p) (nzItems d' p) := by
  induction h generalizing p with
  | nil => exact .nil
  | @cons a z d d' h1 _ ih =>
    rw [nzItems_cons, nzItems_cons]
    by_cases ha : a = 0
    · rw [if_neg (not_not.mpr ha), if_neg (not_not.mpr ((Near.zero_iff R h1).mp ha))]
      exact ih _
    · rw [if_pos ha, if_pos (fun hz => ha ((Near.zero_iff R h1).mpr hz))]
      exact .cons ⟨rfl, h1⟩ (ih _)

open Classical in
theorem rowItems_same (R : Rounds val u) {op : MatrixOp F} {U : MatrixOp ℂ} (h : Stores val u op U) (r : ℕ) :
    SameItems val u (rowItems op r) (rowItems U r) := by
  induction h generalizing r with
  | matrix idx d d' hd =>
    apply nzItems_same R
    exact List.forall₂_take _ (List.forall₂_drop _ hd)
  | sparse idx rows rows' hrows =>
    simp only [rowItems]
    by_cases hr : r < rows.length
    · have hr' : r < rows'.length := by rw [← hrows.length_eq]; exact hr
      rw [List.getElem?_eq_getElem hr, List.getElem?_eq_getElem hr']
      exact (List.forall₂_iff_get.mp hrows).2 r hr hr'
    · have hr' : ¬ r < rows'.length := by rw [← hrows.length_eq]; exact hr
      rw [List.getElem?_eq_none (by omega), List.getElem?_eq_none (by omega)]
      exact .nil
  | swap a idx => exact .cons ⟨rfl, Near.one R⟩ .nil
  | control nc idx op U _ ih =>
    simp only [rowItems]
    split
    · rw [SameItems, List.forall₂_map_left_iff, List.forall₂_map_right_iff]
      exact (ih _).imp fun a b hab => ⟨by rw [hab.1], hab.2⟩
    · exact .cons ⟨rfl, Near.one R⟩ .nil

omit [Zero F] [One F] [Add F] [Mul F] [DecidableEq F] in
theorem Stores.indices {op : MatrixOp F} {U : MatrixOp ℂ} (h : Stores val u op U) : op.indices = U.indices := by
  cases h <;> rfl

omit [Zero F] [One F] [Add F] [Mul F] [DecidableEq F] in
theorem Stores.wf {op : MatrixOp F} {U : MatrixOp ℂ} (h : Stores val u op U) (hU : U.WF) : op.WF := by
  induction h with
  | matrix idx d d' hd => exact (hd.length_eq).trans hU
  | sparse idx rows rows' hrows =>
    refine ⟨hrows.length_eq.trans hU.1, ?_⟩
    intro row hrow e he
    obtain ⟨i, hi, rfl⟩ := List.mem_iff_getElem.mp hrow
    have hi' : i < rows'.length := by rw [← hrows.length_eq]; exact hi
    have h1 := (List.forall₂_iff_get.mp hrows).2 i hi hi'
    obtain ⟨j, hj, rfl⟩ := List.mem_iff_getElem.mp he
    have hj' : j < rows'[i].length := by
      have := h1.length_eq
      simp only [List.get_eq_getElem] at this
      omega
    have h2 := (List.forall₂_iff_get.mp h1).2 j hj hj'
    simp only [List.get_eq_getElem] at h2
    rw [h2.1]
    exact hU.2 _ (List.getElem_mem hi') _ (List.getElem_mem hj')
  | swap a idx => exact hU
  | control nc idx op U h ih =>
    obtain ⟨h1, h2, h3⟩ := hU
    exact ⟨h1, ih h2, by rw [h.indices]; exact h3⟩

end rows

section exact
open Classical

theorem nzItems_fst_sorted (d : List ℂ) (p : ℕ) : ((nzItems d p).map Prod.fst).Pairwise (· < ·) ∧ ∀ q ∈ (nzItems d p).map Prod.fst, p ≤ q := by
  induction d generalizing p with
  | nil => exact ⟨List.Pairwise.nil, by simp [nzItems]⟩
  | cons v d ih =>
    rw [nzItems_cons]
    obtain ⟨h1, h2⟩ := ih (p + 1)
    split
    · refine ⟨?_, ?_⟩
      · rw [List.map_cons, List.pairwise_cons]
        exact ⟨fun q hq => h2 q hq, h1⟩
      · intro q hq
        rw [List.map_cons, List.mem_cons] at hq
        rcases hq with rfl | hq
        · rfl
        · have := h2 q hq; omega
    · exact ⟨h1, fun q hq => by have := h2 q hq; omega⟩

theorem rowItems_nodup (U : MatrixOp ℂ) (h : U.Distinct) (r : ℕ) : ((rowItems U r).map Prod.fst).Nodup := by
  induction U generalizing r with
  | matrix idx d => exact (nzItems_fst_sorted _ 0).1.imp (fun h => h.ne)
  | sparse idx rows =>
    simp only [rowItems]
    by_cases hr : r < rows.length
    · rw [List.getElem?_eq_getElem hr]
      exact h _ (List.getElem_mem hr)
    · rw [List.getElem?_eq_none (by omega)]; simp
  | swap a idx => simp [rowItems]
  | control nc idx op ih =>
    simp only [rowItems]
    split
    · rw [List.map_map]
      have : (Prod.fst ∘ fun e : ℕ × ℂ => (e.1 + (2 ^ idx.length - 2 ^ (idx.length - nc)), e.2)) =
          (fun x => x + (2 ^ idx.length - 2 ^ (idx.length - nc))) ∘ Prod.fst := rfl
      rw [this, ← List.map_map]
      exact (ih h _).map (fun a b hab => by simpa using hab)
    · simp

theorem rowItems_width (U : MatrixOp ℂ) (r : ℕ) : (rowItems U r).length ≤ U.width := by
  induction U generalizing r with
  | matrix idx d =>
    simp only [rowItems, nzItems, MatrixOp.width, List.length_map]
    refine (List.length_filter_le _ _).trans ?_
    simp [denseRow]
  | sparse idx rows =>
    simp only [rowItems, MatrixOp.width]
    by_cases hr : r < rows.length
    · rw [List.getElem?_eq_getElem hr, Option.getD_some]
      have : ∀ (l : List (List (ℕ × ℂ))) row, row ∈ l → row.length ≤ (l.map List.length).foldr max 1 := by
        intro l
        induction l with
        | nil => simp
        | cons a l ih =>
          intro row hrow
          rw [List.mem_cons] at hrow
          simp only [List.map_cons, List.foldr_cons]
          rcases hrow with rfl | hrow
          · exact le_max_left _ _
          · exact (ih row hrow).trans (le_max_right _ _)
      exact this rows _ (List.getElem_mem hr)
    · rw [List.getElem?_eq_none (by omega)]; simp
  | swap a idx => simp [rowItems, MatrixOp.width]
  | control nc idx op ih =>
    have h1 : ∀ V : MatrixOp ℂ, 1 ≤ V.width := by
      intro V
      induction V with
      | matrix idx d => exact Nat.one_le_two_pow
      | sparse idx rows =>
        simp only [MatrixOp.width]
        generalize rows.map List.length = l
        induction l with
        | nil => simp
        | cons a l ih => exact ih.trans (le_max_right _ _)
      | swap a idx => exact le_rfl
      | control nc idx op ih => exact ih
    simp only [rowItems, MatrixOp.width]
    split
    · rw [List.length_map]; exact ih _
    · simpa using h1 op

theorem filter_fst (l : List (ℕ × ℂ)) (h : (l.map Prod.fst).Nodup) (c : ℕ) :
    l.filter (fun e => e.1 == c) = [] ∨ ∃ e, l.filter (fun e => e.1 == c) = [e] := by
  induction l with
  | nil => left; rfl
  | cons a l ih =>
    rw [List.map_cons, List.nodup_cons] at h
    rw [List.filter_cons]
    by_cases hc : a.1 = c
    · right
      refine ⟨a, ?_⟩
      rw [if_pos (by simpa using hc)]
      rw [List.filter_eq_nil_iff.mpr]
      intro e he h'
      apply h.1
      rw [hc, ← show e.1 = c by simpa using h']
      exact List.mem_map_of_mem he
    · rw [if_neg (by simpa using hc)]
      exact ih h.2

theorem Rows.sq_sum {l : List (ℕ × ℂ)} {k : ℕ} {g : ℕ → ℂ} (h : Rows l k g) (hn : (l.map Prod.fst).Nodup) (y : ℕ → ℝ) :
    (l.map (fun e => ‖e.2‖ ^ 2 * y e.1)).sum = ∑ c ∈ range (2 ^ k), ‖g c‖ ^ 2 * y c := by
  have := sum_items (l.map fun e => (e.1, ‖e.2‖ ^ 2)) k (by
    intro e he
    rw [List.mem_map] at he
    obtain ⟨e', he', rfl⟩ := he
    exact h.1 e' he') y
  rw [List.map_map] at this
  rw [show (fun e : ℕ × ℂ => ‖e.2‖ ^ 2 * y e.1) =
    (fun e : ℕ × ℝ => e.2 * y e.1) ∘ fun e : ℕ × ℂ => (e.1, ‖e.2‖ ^ 2) from rfl, this]
  apply sum_congr rfl
  intro c hc
  congr 1
  rw [← h.2 c (mem_range.mp hc), List.filter_map, List.map_map]
  have e : ((fun e : ℕ × ℝ => e.1 == c) ∘ fun e : ℕ × ℂ => (e.1, ‖e.2‖ ^ 2)) = fun e : ℕ × ℂ => e.1 == c := rfl
  rw [e]
  rcases filter_fst l hn c with h0 | ⟨a, h0⟩
  · simp [h0]
  · simp [h0]

theorem list_sq_le {α : Type} (l : List α) (f : α → ℝ) (T : ℕ) (hT : l.length ≤ T) :
    (l.map f).sum ^ 2 ≤ T * (l.map fun x => f x ^ 2).sum := by
  have h : ∀ g : α → ℝ, (l.map g).sum = ∑ i : Fin l.length, g l[i] := by
    intro g
    conv_lhs => rw [← List.ofFn_getElem (xs := l)]
    rw [List.map_ofFn, List.sum_ofFn]
    rfl
  rw [h, h]
  refine sq_sum_le_card_mul_sum_sq.trans ?_
  rw [Finset.card_univ, Fintype.card_fin]
  exact mul_le_mul_of_nonneg_right (by exact_mod_cast hT) (sum_nonneg fun i _ => sq_nonneg _)

end exact

end Verif
