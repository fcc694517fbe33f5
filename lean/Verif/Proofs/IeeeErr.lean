import Verif.Spec.Ieee
import Verif.Proofs.FloatRun

/-! # Error of the simulator for numbers with limited exponents -/

namespace Verif
open MatrixOp Finset

section sums
variable {F : Type} [Zero F] [One F] [Add F] [Mul F] {fin : F → Prop} {val : F → ℂ} {u η M : ℝ}

/-- a computed number, its exact value and a bound for its size -/
structure TermL (fin : F → Prop) (val : F → ℂ) (g c : ℝ) (t : F) (z : ℂ) (a : ℝ) : Prop where
  fin : fin t
  size : ‖z‖ ≤ a
  err : ‖val t - z‖ ≤ (g - 1) * a + c

theorem TermL.nonneg {g c : ℝ} {t : F} {z : ℂ} {a : ℝ} (h : TermL fin val g c t z a) : 0 ≤ a := (norm_nonneg _).trans h.size

theorem TermL.add (R : Limits fin val u η M) {g G c C : ℝ} (hg : g ≤ G) {s t : F} {S z : ℂ} {A a : ℝ}
    (hs : TermL fin val G C s S A) (ht : TermL fin val g c t z a) (hM : G * (A + a) + (C + c) ≤ M) :
    TermL fin val (G * (1 + u)) ((1 + u) * (C + c) + η) (s + t) (S + z) (A + a) := by
  have hA := hs.nonneg
  have ha := ht.nonneg
  have hu := R.u_nonneg
  have hga : g * a ≤ G * a := mul_le_mul_of_nonneg_right hg ha
  have e1 : ‖val s + val t - (S + z)‖ ≤ (G - 1) * A + C + ((g - 1) * a + c) := by
    have : val s + val t - (S + z) = (val s - S) + (val t - z) := by ring
    rw [this]
    exact (norm_add_le _ _).trans (add_le_add hs.err ht.err)
  have e2 : ‖val s + val t‖ ≤ G * (A + a) + (C + c) := by
    have : val s + val t = (val s + val t - (S + z)) + (S + z) := by ring
    rw [this]
    refine (norm_add_le _ _).trans ?_
    have := (norm_add_le S z).trans (add_le_add hs.size ht.size)
    nlinarith
  obtain ⟨e4, e5⟩ := R.add s t hs.fin ht.fin (e2.trans hM)
  refine ⟨e4, (norm_add_le _ _).trans (add_le_add hs.size ht.size), ?_⟩
  have e3 : val (s + t) - (S + z) = (val (s + t) - (val s + val t)) + (val s + val t - (S + z)) := by ring
  rw [e3]
  refine (norm_add_le _ _).trans ?_
  have := mul_le_mul_of_nonneg_left e2 hu
  nlinarith

theorem TermL.mul (R : Limits fin val u η M) {X : ℝ} {m x : F} {z : ℂ} (h : StoredAs fin val u η m z) (hz : ‖z‖ ≤ 1) (hx : fin x)
    (hX : ‖val x‖ ≤ X) (hM : 3 * X ≤ M) :
    TermL fin val ((1 + u) ^ 2) (η * (1 + 2 * X)) (m * x) (z * val x) (‖z‖ * ‖val x‖) := by
  have hu := R.u_nonneg
  have hη := R.η_nonneg
  have hx0 := norm_nonneg (val x)
  have hz0 := norm_nonneg z
  have e1 : ‖val m‖ ≤ (1 + u) * ‖z‖ + η := by
    have : val m = (val m - z) + z := by ring
    rw [this]
    refine (norm_add_le _ _).trans ?_
    have := h.2.1
    linarith
  have e6 : ‖val m‖ * ‖val x‖ ≤ ((1 + u) * ‖z‖ + η) * ‖val x‖ := mul_le_mul_of_nonneg_right e1 hx0
  have e7 : ‖val m‖ ≤ 3 := by nlinarith [R.u_le_one, R.η_le_one]
  obtain ⟨e8, e3⟩ := R.mul m x h.1 hx ((mul_le_mul e7 hX hx0 (by norm_num)).trans hM)
  refine ⟨e8, (norm_mul z _).le, ?_⟩
  have e2 : val (m * x) - z * val x = (val (m * x) - val m * val x) + (val m - z) * val x := by ring
  rw [e2]
  refine (norm_add_le _ _).trans ?_
  rw [norm_mul]
  have e4 : ‖val m - z‖ * ‖val x‖ ≤ (u * ‖z‖ + η) * ‖val x‖ := mul_le_mul_of_nonneg_right h.2.1 hx0
  have e5 : u * (‖val m‖ * ‖val x‖) ≤ u * (((1 + u) * ‖z‖ + η) * ‖val x‖) := mul_le_mul_of_nonneg_left e6 hu
  have e9 : u * η * ‖val x‖ ≤ η * X := by
    have : u * η * ‖val x‖ ≤ 1 * η * ‖val x‖ := mul_le_mul_of_nonneg_right (mul_le_mul_of_nonneg_right R.u_le_one hη) hx0
    have := mul_le_mul_of_nonneg_left hX hη
    linarith
  have e10 := mul_le_mul_of_nonneg_left hX hη
  nlinarith

/-- item lists that agree up to the stored entries, where entries stored as zero may be left out -/
inductive Thin (fin : F → Prop) (val : F → ℂ) (u η : ℝ) : List (ℕ × F) → List (ℕ × ℂ) → Prop
  | nil : Thin fin val u η [] []
  | keep {c a z l l'} : StoredAs fin val u η a z → Thin fin val u η l l' → Thin fin val u η ((c, a) :: l) ((c, z) :: l')
  | skip {c z l l'} : StoredAs fin val u η 0 z → Thin fin val u η l l' → Thin fin val u η l ((c, z) :: l')

omit [One F] [Add F] [Mul F] in
theorem Thin.length_le {l : List (ℕ × F)} {l' : List (ℕ × ℂ)} (h : Thin fin val u η l l') : l.length ≤ l'.length := by
  induction h with
  | nil => rfl
  | keep _ _ ih => simpa using ih
  | skip _ _ ih => simp; omega

theorem TermL.foldl (R : Limits fin val u η M) {X : ℝ} (x : ℕ → F) (hx : ∀ i, fin (x i) ∧ ‖val (x i)‖ ≤ X) (hX : 3 * X ≤ M)
    {l : List (ℕ × F)} {l' : List (ℕ × ℂ)} (h : Thin fin val u η l l') (hz : ∀ e ∈ l', ‖e.2‖ ≤ 1)
    {G C : ℝ} (hG : (1 + u) ^ 2 ≤ G) (hC : 0 ≤ C) {s : F} {S : ℂ} {A : ℝ} (hs : TermL fin val G C s S A)
    (hM : G * (1 + u) ^ l'.length * (A + (l'.map fun e => ‖e.2‖ * ‖val (x e.1)‖).sum) +
      (1 + u) ^ l'.length * (C + l'.length * (2 * η * (1 + X))) ≤ M) :
    TermL fin val (G * (1 + u) ^ l'.length) ((1 + u) ^ l'.length * (C + l'.length * (2 * η * (1 + X))))
      ((l.map fun e => e.2 * x e.1).foldl (· + ·) s) (S + (l'.map fun e => e.2 * val (x e.1)).sum)
      (A + (l'.map fun e => ‖e.2‖ * ‖val (x e.1)‖).sum) := by
  have hu := R.u_nonneg
  have hη := R.η_nonneg
  have hX0 : 0 ≤ X := (norm_nonneg _).trans (hx 0).2
  have hc0 : 0 ≤ 2 * η * (1 + X) := by positivity
  have hnn : ∀ k : List (ℕ × ℂ), 0 ≤ (k.map fun e => ‖e.2‖ * ‖val (x e.1)‖).sum := by
    intro k
    apply List.sum_nonneg
    intro y hy
    rw [List.mem_map] at hy
    obtain ⟨e, -, rfl⟩ := hy
    positivity
  induction h generalizing G C s S A with
  | nil => simpa using hs
  | @keep c a z l l' h1 _ ih =>
    have hA := hs.nonneg
    have ht := TermL.mul R (x := x c) h1 (hz (c, z) (by simp)) (hx c).1 (hx c).2 hX
    have hp : (1 : ℝ) ≤ (1 + u) ^ l'.length := one_le_pow₀ (by linarith)
    have hl0 := hnn l'
    have hzx : 0 ≤ ‖z‖ * ‖val (x c)‖ := by positivity
    have hG1 : (1 : ℝ) ≤ G := le_trans (one_le_pow₀ (by linarith)) hG
    simp only [List.map_cons, List.sum_cons, List.length_cons, pow_succ, Nat.cast_add, Nat.cast_one] at hM ⊢
    have hcc : η * (1 + 2 * X) + η = 2 * η * (1 + X) := by ring
    have hn : (0 : ℝ) ≤ (l'.length : ℝ) * (2 * η * (1 + X)) := mul_nonneg (Nat.cast_nonneg _) hc0
    have hq : (1 : ℝ) ≤ (1 + u) ^ l'.length * (1 + u) := by nlinarith
    have hAa : 0 ≤ A + ‖z‖ * ‖val (x c)‖ := by linarith
    have hM1 : G * (A + ‖z‖ * ‖val (x c)‖) + (C + η * (1 + 2 * X)) ≤ M := by
      refine le_trans ?_ hM
      have a1 : G * (A + ‖z‖ * ‖val (x c)‖) ≤
          G * ((1 + u) ^ l'.length * (1 + u)) * (A + (‖z‖ * ‖val (x c)‖ + (l'.map fun e => ‖e.2‖ * ‖val (x e.1)‖).sum)) := by
        apply mul_le_mul _ (by linarith) hAa (by positivity)
        exact le_mul_of_one_le_right (by linarith) hq
      have a2 : C + η * (1 + 2 * X) ≤ (1 + u) ^ l'.length * (1 + u) * (C + ((l'.length : ℝ) + 1) * (2 * η * (1 + X))) := by
        refine le_trans ?_ (le_mul_of_one_le_left (by nlinarith) hq)
        nlinarith
      linarith
    have h2 := TermL.add R hG hs ht hM1
    have h3 : TermL fin val (G * (1 + u)) ((1 + u) * (C + 2 * η * (1 + X))) (s + a * x c) (S + z * val (x c)) (A + ‖z‖ * ‖val (x c)‖) := by
      refine ⟨h2.fin, h2.size, h2.err.trans (by nlinarith)⟩
    have hG2 : (1 + u) ^ 2 ≤ G * (1 + u) := by nlinarith
    have h4 := ih (fun e he => hz e (by simp [he])) hG2 (by positivity) h3 (by
      refine le_trans (add_le_add (le_of_eq (by ring)) ?_) hM
      have : (1 + u) ^ l'.length * ((1 + u) * (C + 2 * η * (1 + X)) + (l'.length : ℝ) * (2 * η * (1 + X))) ≤
          (1 + u) ^ l'.length * ((1 + u) * (C + 2 * η * (1 + X)) + (1 + u) * ((l'.length : ℝ) * (2 * η * (1 + X)))) := by
        apply mul_le_mul_of_nonneg_left _ (by positivity)
        nlinarith
      refine this.trans (le_of_eq (by ring)))
    simp only [List.foldl_cons]
    refine ⟨h4.fin, ?_, ?_⟩
    · rw [← add_assoc, ← add_assoc]; exact h4.size
    · rw [← add_assoc, ← add_assoc]
      refine h4.err.trans ?_
      have : (1 + u) ^ l'.length * ((1 + u) * (C + 2 * η * (1 + X)) + (l'.length : ℝ) * (2 * η * (1 + X))) ≤
          (1 + u) ^ l'.length * ((1 + u) * (C + 2 * η * (1 + X)) + (1 + u) * ((l'.length : ℝ) * (2 * η * (1 + X)))) := by
        apply mul_le_mul_of_nonneg_left _ (by positivity)
        nlinarith
      refine (add_le_add le_rfl this).trans (le_of_eq (by ring))
  | @skip c z l l' h1 _ ih =>
    have hA := hs.nonneg
    have hp : (1 : ℝ) ≤ (1 + u) ^ l'.length := one_le_pow₀ (by linarith)
    have hl0 := hnn l'
    have hzx : 0 ≤ ‖z‖ * ‖val (x c)‖ := by positivity
    have hG1 : (1 : ℝ) ≤ G := le_trans (one_le_pow₀ (by linarith)) hG
    simp only [List.map_cons, List.sum_cons, List.length_cons, pow_succ, Nat.cast_add, Nat.cast_one] at hM ⊢
    have hn : (0 : ℝ) ≤ (l'.length : ℝ) * (2 * η * (1 + X)) := mul_nonneg (Nat.cast_nonneg _) hc0
    -- the entry left out
    have hz1 : ‖z‖ ≤ u * ‖z‖ + η := by
      have := h1.2.1
      rwa [R.val_zero, zero_sub, norm_neg] at this
    have hz2 : ‖z‖ * ‖val (x c)‖ ≤ (G - 1) * (‖z‖ * ‖val (x c)‖) + 2 * η * (1 + X) := by
      have a1 : ‖z‖ * ‖val (x c)‖ ≤ (u * ‖z‖ + η) * ‖val (x c)‖ := mul_le_mul_of_nonneg_right hz1 (norm_nonneg _)
      have a2 := mul_le_mul_of_nonneg_left (hx c).2 hη
      have a3 : u * (‖z‖ * ‖val (x c)‖) ≤ (G - 1) * (‖z‖ * ‖val (x c)‖) :=
        mul_le_mul_of_nonneg_right (by nlinarith) hzx
      nlinarith [mul_nonneg hη hX0]
    have h3 : TermL fin val G (C + 2 * η * (1 + X)) s (S + z * val (x c)) (A + ‖z‖ * ‖val (x c)‖) := by
      refine ⟨hs.fin, (norm_add_le _ _).trans (add_le_add hs.size (norm_mul _ _).le), ?_⟩
      have : val s - (S + z * val (x c)) = (val s - S) - z * val (x c) := by ring
      rw [this]
      refine (norm_sub_le _ _).trans ?_
      rw [norm_mul]
      have := hs.err
      nlinarith
    have hstep : G * (1 + u) ^ l'.length ≤ G * ((1 + u) ^ l'.length * (1 + u)) := by
      apply mul_le_mul_of_nonneg_left _ (by linarith)
      nlinarith
    have hK : 0 ≤ C + 2 * η * (1 + X) + (l'.length : ℝ) * (2 * η * (1 + X)) := by nlinarith
    have hstepC : (1 + u) ^ l'.length * (C + 2 * η * (1 + X) + (l'.length : ℝ) * (2 * η * (1 + X))) ≤
        (1 + u) ^ l'.length * (1 + u) * (C + ((l'.length : ℝ) + 1) * (2 * η * (1 + X))) := by
      have e : C + ((l'.length : ℝ) + 1) * (2 * η * (1 + X)) = C + 2 * η * (1 + X) + (l'.length : ℝ) * (2 * η * (1 + X)) := by ring
      rw [e]
      apply mul_le_mul_of_nonneg_right _ hK
      nlinarith
    have hT : 0 ≤ A + (‖z‖ * ‖val (x c)‖ + (l'.map fun e => ‖e.2‖ * ‖val (x e.1)‖).sum) := by linarith
    have h4 := ih (fun e he => hz e (by simp [he])) hG (by positivity) h3 (by
      refine le_trans (add_le_add ?_ hstepC) hM
      rw [add_assoc]
      exact mul_le_mul_of_nonneg_right hstep hT)
    refine ⟨h4.fin, ?_, ?_⟩
    · rw [← add_assoc, ← add_assoc]; exact h4.size
    · have := h4.err
      rw [add_assoc, add_assoc A] at this
      refine this.trans (add_le_add ?_ hstepC)
      exact mul_le_mul_of_nonneg_right (by linarith) hT

/-- a row: the products added from left to right from zero -/
theorem TermL.total (R : Limits fin val u η M) {X : ℝ} (x : ℕ → F) (hx : ∀ i, fin (x i) ∧ ‖val (x i)‖ ≤ X)
    {l : List (ℕ × F)} {l' : List (ℕ × ℂ)} (h : Thin fin val u η l l') (hz : ∀ e ∈ l', ‖e.2‖ ≤ 1) (w : ℕ) (hw : l'.length ≤ w)
    (hw0 : 1 ≤ w) (hM : (1 + u) ^ (w + 2) * (w * X) + (1 + u) ^ w * (w * (2 * η * (1 + X))) ≤ M) (hX : 3 * X ≤ M) :
    fin (MatrixOp.total (l.map fun e => e.2 * x e.1)) ∧
    ‖val (MatrixOp.total (l.map fun e => e.2 * x e.1)) - (l'.map fun e => e.2 * val (x e.1)).sum‖ ≤
      ((1 + u) ^ (w + 2) - 1) * (l'.map fun e => ‖e.2‖ * ‖val (x e.1)‖).sum + (1 + u) ^ w * (w * (2 * η * (1 + X))) := by
  have hu := R.u_nonneg
  have hη := R.η_nonneg
  have hX0 : 0 ≤ X := (norm_nonneg _).trans (hx 0).2
  have hc0 : 0 ≤ 2 * η * (1 + X) := by positivity
  have hs : TermL fin val ((1 + u) ^ 2) 0 (0 : F) 0 0 := ⟨R.fin_zero, by simp, by simp [R.val_zero]⟩
  have hnn : 0 ≤ (l'.map fun e => ‖e.2‖ * ‖val (x e.1)‖).sum := by
    apply List.sum_nonneg
    intro y hy
    rw [List.mem_map] at hy
    obtain ⟨e, -, rfl⟩ := hy
    positivity
  have hsum : (l'.map fun e => ‖e.2‖ * ‖val (x e.1)‖).sum ≤ w * X := by
    have : (l'.map fun e => ‖e.2‖ * ‖val (x e.1)‖).sum ≤ l'.length • X := by
      have := List.sum_le_card_nsmul (l'.map fun e => ‖e.2‖ * ‖val (x e.1)‖) X (by
        intro y hy
        rw [List.mem_map] at hy
        obtain ⟨e, he, rfl⟩ := hy
        have := mul_le_mul (hz e he) (hx e.1).2 (norm_nonneg _) zero_le_one
        linarith)
      simpa using this
    rw [nsmul_eq_mul] at this
    refine this.trans (mul_le_mul_of_nonneg_right (by exact_mod_cast hw) hX0)
  have p1 : (1 + u) ^ l'.length ≤ (1 + u) ^ w := pow_le_pow_right₀ (by linarith) hw
  have p2 : (1 + u) ^ 2 * (1 + u) ^ l'.length ≤ (1 + u) ^ (w + 2) := by
    rw [← pow_add]; exact pow_le_pow_right₀ (by linarith) (by omega)
  have p3 : (1 + u) ^ l'.length * (0 + (l'.length : ℝ) * (2 * η * (1 + X))) ≤ (1 + u) ^ w * (w * (2 * η * (1 + X))) := by
    rw [zero_add]
    exact mul_le_mul p1 (mul_le_mul_of_nonneg_right (by exact_mod_cast hw) hc0) (by positivity) (by positivity)
  have key := TermL.foldl R x hx hX h hz le_rfl le_rfl hs (by
    refine le_trans (add_le_add ?_ p3) hM
    rw [zero_add]
    exact mul_le_mul p2 hsum hnn (by positivity))
  refine ⟨key.fin, ?_⟩
  have := key.err
  rw [zero_add, zero_add] at this
  refine this.trans (add_le_add ?_ p3)
  exact mul_le_mul_of_nonneg_right (by linarith) hnn

end sums

section rows
variable {F : Type} [Zero F] [One F] [Add F] [Mul F] [DecidableEq F] {fin : F → Prop} {val : F → ℂ} {u η M : ℝ}

theorem StoredAs.one (R : Limits fin val u η M) : StoredAs fin val u η (1 : F) 1 := by
  refine ⟨R.fin_one, ?_, fun h => absurd h one_ne_zero⟩
  rw [R.val_one, sub_self, norm_zero, norm_one]
  linarith [R.u_nonneg, R.η_nonneg]

omit [One F] [Add F] [Mul F] [DecidableEq F] in
theorem Thin.of_forall₂ {l : List (ℕ × F)} {l' : List (ℕ × ℂ)}
    (h : List.Forall₂ (fun e e' => e.1 = e'.1 ∧ StoredAs fin val u η e.2 e'.2) l l') : Thin fin val u η l l' := by
  induction h with
  | nil => exact .nil
  | @cons a b l l' h1 _ ih =>
    obtain ⟨c, a⟩ := a
    obtain ⟨c', z⟩ := b
    obtain ⟨rfl, h2⟩ := h1
    exact .keep h2 ih

omit [One F] [Add F] [Mul F] [DecidableEq F] in
theorem Thin.map {l : List (ℕ × F)} {l' : List (ℕ × ℂ)} (h : Thin fin val u η l l') (g : ℕ → ℕ) :
    Thin fin val u η (l.map fun e => (g e.1, e.2)) (l'.map fun e => (g e.1, e.2)) := by
  induction h with
  | nil => exact .nil
  | keep h1 _ ih => exact .keep h1 ih
  | skip h1 _ ih => exact .skip h1 ih

omit [One F] [Add F] [Mul F] in
open Classical in
theorem nzItems_thin {d : List F} {d' : List ℂ} (h : List.Forall₂ (StoredAs fin val u η) d d') (p : ℕ) :
    Thin fin val u η (nzItems d p) (nzItems d' p) := by
  induction h generalizing p with
  | nil => exact .nil
  | @cons a z d d' h1 _ ih =>
    rw [nzItems_cons, nzItems_cons]
    by_cases ha : a = 0
    · rw [if_neg (not_not.mpr ha)]
      split
      · exact .skip (ha ▸ h1) (ih _)
      · exact ih _
    · rw [if_pos ha, if_pos (fun hz => ha (h1.2.2 hz))]
      exact .keep h1 (ih _)

open Classical in
theorem rowItems_thin (R : Limits fin val u η M) {op : MatrixOp F} {U : MatrixOp ℂ} (h : StoresIn fin val u η op U) (r : ℕ) :
    Thin fin val u η (rowItems op r) (rowItems U r) := by
  induction h generalizing r with
  | matrix idx d d' hd => exact nzItems_thin (List.forall₂_take _ (List.forall₂_drop _ hd)) _
  | sparse idx rows rows' hrows =>
    simp only [rowItems]
    by_cases hr : r < rows.length
    · have hr' : r < rows'.length := by rw [← hrows.length_eq]; exact hr
      rw [List.getElem?_eq_getElem hr, List.getElem?_eq_getElem hr']
      exact .of_forall₂ ((List.forall₂_iff_get.mp hrows).2 r hr hr')
    · have hr' : ¬ r < rows'.length := by rw [← hrows.length_eq]; exact hr
      rw [List.getElem?_eq_none (by omega), List.getElem?_eq_none (by omega)]
      exact .nil
  | swap a idx => exact .keep (StoredAs.one R) .nil
  | control nc idx op U _ ih =>
    simp only [rowItems]
    split
    · exact (ih _).map fun c => c + (2 ^ idx.length - 2 ^ (idx.length - nc))
    · exact .keep (StoredAs.one R) .nil

omit [One F] [Add F] [Mul F] [DecidableEq F] in
theorem StoresIn.indices {op : MatrixOp F} {U : MatrixOp ℂ} (h : StoresIn fin val u η op U) : op.indices = U.indices := by
  cases h <;> rfl

omit [One F] [Add F] [Mul F] [DecidableEq F] in
theorem StoresIn.wf {op : MatrixOp F} {U : MatrixOp ℂ} (h : StoresIn fin val u η op U) (hU : U.WF) : op.WF := by
  induction h with
  | matrix idx d d' hd => exact (hd.length_eq).trans hU
  | sparse idx rows rows' hrows =>
    refine ⟨hrows.length_eq.trans hU.1, ?_⟩
    intro row hrow e he
    obtain ⟨i, hi, rfl⟩ := List.mem_iff_getElem.mp hrow
    have hi' : i < rows'.length := by rw [← hrows.length_eq]; exact hi
    have h1 := (List.forall₂_iff_get.mp hrows).2 i hi hi'
    obtain ⟨j, hj, rfl⟩ := List.mem_iff_getElem.mp he
    have hj' : j < rows'[i].length := by
      have := h1.length_eq
      simp only [List.get_eq_getElem] at this
      omega
    have h2 := (List.forall₂_iff_get.mp h1).2 j hj hj'
    simp only [List.get_eq_getElem] at h2
    rw [h2.1]
    exact hU.2 _ (List.getElem_mem hi') _ (List.getElem_mem hj')
  | swap a idx => exact hU
  | control nc idx op U h ih =>
    obtain ⟨h1, h2, h3⟩ := hU
    exact ⟨h1, ih h2, by rw [h.indices]; exact h3⟩

open Classical in
/-- the entries of a unitary op are at most one in size -/
theorem rowItems_le_one (U : MatrixOp ℂ) (hU : U.WF) (hd : U.Distinct) (hu : IsUnitary U.indices.length (opMat U)) (r : ℕ)
    (hr : r < 2 ^ U.indices.length) : ∀ e ∈ rowItems U r, ‖e.2‖ ≤ 1 := by
  intro e he
  obtain ⟨l, hl, hrows⟩ := items_spec U hU r hr
  rw [items_rows U hU r hr] at hl
  injection hl with hl
  subst hl
  have hc := hrows.1 e he
  have h1 := hrows.sq_sum (rowItems_nodup U hd r) (fun c => if c = e.1 then 1 else 0)
  have h2 : ∑ c ∈ range (2 ^ U.indices.length), ‖opMat U r c‖ ^ 2 * (if c = e.1 then (1 : ℝ) else 0) = ‖opMat U r e.1‖ ^ 2 := by
    simp only [mul_ite, mul_one, mul_zero]
    rw [sum_ite_eq', if_pos (mem_range.mpr hc)]
  rw [h2] at h1
  have h3 := unitary_col _ _ hu e.1 hc
  have h4 : ‖opMat U r e.1‖ ^ 2 ≤ 1 := by
    rw [← h3]
    exact single_le_sum (f := fun r => ‖opMat U r e.1‖ ^ 2) (fun _ _ => sq_nonneg _) (mem_range.mpr hr)
  have h5 : ‖e.2‖ ^ 2 ≤ ((rowItems U r).map fun e' => ‖e'.2‖ ^ 2 * (if e'.1 = e.1 then (1 : ℝ) else 0)).sum := by
    have hm : ‖e.2‖ ^ 2 * (if e.1 = e.1 then (1 : ℝ) else 0) ∈
        (rowItems U r).map fun e' => ‖e'.2‖ ^ 2 * (if e'.1 = e.1 then (1 : ℝ) else 0) := List.mem_map_of_mem he
    have := List.single_le_sum (l := (rowItems U r).map fun e' => ‖e'.2‖ ^ 2 * (if e'.1 = e.1 then (1 : ℝ) else 0)) (by
      intro y hy
      rw [List.mem_map] at hy
      obtain ⟨e', -, rfl⟩ := hy
      positivity) _ hm
    simpa using this
  have h6 : ‖e.2‖ ^ 2 ≤ 1 := by rw [h1] at h5; exact h5.trans h4
  nlinarith [norm_nonneg e.2]

open Classical in
/-- the error of one computed row -/
theorem rowTotal_errL (R : Limits fin val u η M) (n : ℕ) {op : MatrixOp F} {U : MatrixOp ℂ} (h : StoresIn fin val u η op U) {w : ℕ}
    (hU : UnitaryOn n w U) (input : List F) (hi : input.length = 2 ^ n) {X : ℝ} (hx : ∀ a ∈ input, fin a ∧ ‖val a‖ ≤ X) (hX0 : 0 ≤ X)
    (hM : (1 + u) ^ (w + 2) * (w * X) + (1 + u) ^ w * (w * (2 * η * (1 + X))) ≤ M) (hX : 3 * X ≤ M)
    (r : ℕ) (hr : r < 2 ^ n) :
    fin (rowTotal n op input r) ∧
    ‖val (rowTotal n op input r) - mulVec n (embed n U.indices (opMat U)) (vals val input) r‖ ≤
      ((1 + u) ^ (w + 2) - 1) *
        ((rowItems U (f2s n U.indices r)).map fun e => ‖e.2‖ * ‖vals val input (s2f n U.indices e.1 r)‖).sum +
      (1 + u) ^ w * (w * (2 * η * (1 + X))) := by
  have hval : ∀ c : ℕ, val ((input[c]?).getD 0) = vals val input c := by
    intro c
    unfold vals
    cases input[c]? with
    | none => simp [R.val_zero]
    | some x => rfl
  have hget : ∀ c : ℕ, fin ((input[c]?).getD 0) ∧ ‖val ((input[c]?).getD 0)‖ ≤ X := by
    intro c
    cases hc : input[c]? with
    | none => exact ⟨R.fin_zero, by rw [Option.getD_none, R.val_zero, norm_zero]; exact hX0⟩
    | some x => exact hx x (List.mem_of_getElem? hc)
  have hw1 : (rowItems U (f2s n U.indices r)).length ≤ w := (rowItems_width U _).trans hU.width
  have hw0 : 1 ≤ w := by
    refine le_trans ?_ hU.width
    have : ∀ V : MatrixOp ℂ, 1 ≤ V.width := by
      intro V
      induction V with
      | matrix idx d => exact Nat.one_le_two_pow
      | sparse idx rows =>
        simp only [MatrixOp.width]
        generalize rows.map List.length = l
        induction l with
        | nil => simp
        | cons a l ih => exact ih.trans (le_max_right _ _)
      | swap a idx => exact le_rfl
      | control nc idx op ih => exact ih
    exact this U
  have key := TermL.total R (fun c => (input[s2f n U.indices c r]?).getD 0) (fun c => hget _) (rowItems_thin R h (f2s n U.indices r))
    (rowItems_le_one U hU.wf hU.distinct hU.unitary _ (f2s_lt _ _ _)) w hw1 hw0 hM hX
  simp only [hval] at key
  obtain ⟨l, hl, hrows⟩ := items_spec U hU.wf (f2s n U.indices r) (f2s_lt _ _ _)
  rw [items_rows U hU.wf _ (f2s_lt _ _ _)] at hl
  injection hl with hl
  subst hl
  rw [hrows.sum (fun c => vals val input (s2f n U.indices c r)),
    embed_sum n U.indices hU.nodup hU.lt (opMat U) (vals val input) r hr] at key
  rw [rowTotal, h.indices]
  exact key

theorem nrm_le_add (n : ℕ) (f : ℕ → ℂ) (g : ℕ → ℝ) (c : ℝ) (hc : 0 ≤ c) (h : ∀ r, r < 2 ^ n → ‖f r‖ ≤ g r + c) (hg : ∀ r, 0 ≤ g r) :
    nrm n f ≤ Real.sqrt (∑ r ∈ range (2 ^ n), g r ^ 2) + Real.sqrt (2 ^ n) * c := by
  have e1 : nrm n f ≤ nrm n (fun r => (g r : ℂ) + (c : ℂ)) := by
    apply Real.sqrt_le_sqrt
    apply sum_le_sum
    intro r hr
    have h1 := h r (mem_range.mp hr)
    have h2 : ‖(g r : ℂ) + (c : ℂ)‖ = g r + c := by
      rw [← Complex.ofReal_add, Complex.norm_real, Real.norm_of_nonneg (add_nonneg (hg r) hc)]
    rw [h2]
    exact pow_le_pow_left₀ (norm_nonneg _) h1 2
  refine e1.trans ((nrm_add_le n _ _).trans (le_of_eq ?_))
  unfold nrm
  congr 1
  · congr 1
    apply sum_congr rfl
    intro r _
    rw [Complex.norm_real, Real.norm_eq_abs, sq_abs]
  · rw [sum_const, card_range, nsmul_eq_mul, Complex.norm_real, Real.norm_of_nonneg hc]
    rw [Real.sqrt_mul (by positivity), Real.sqrt_sq hc]
    push_cast
    rfl

open Classical in
/-- the error of one op -/
theorem step_errL (R : Limits fin val u η M) (n : ℕ) {op : MatrixOp F} {U : MatrixOp ℂ} (h : StoresIn fin val u η op U) {w : ℕ}
    (hU : UnitaryOn n w U) (input : List F) (hi : input.length = 2 ^ n) {X : ℝ} (hx : ∀ a ∈ input, fin a ∧ ‖val a‖ ≤ X) (hX0 : 0 ≤ X)
    (hM : (1 + u) ^ (w + 2) * (w * X) + (1 + u) ^ w * (w * (2 * η * (1 + X))) ≤ M) (hX : 3 * X ≤ M) :
    (∀ r, r < 2 ^ n → fin (rowTotal n op input r)) ∧
    nrm n (fun r => val (rowTotal n op input r) - mulVec n (embed n U.indices (opMat U)) (vals val input) r) ≤
      ((1 + u) ^ (w + 2) - 1) * Real.sqrt w * nrm n (vals val input) +
        Real.sqrt (2 ^ n) * ((1 + u) ^ w * (w * (2 * η * (1 + X)))) := by
  have hu := R.u_nonneg
  have hη := R.η_nonneg
  have h0 : 0 ≤ (1 + u) ^ (w + 2) - 1 := by
    have : (1 : ℝ) ≤ (1 + u) ^ (w + 2) := one_le_pow₀ (by linarith)
    linarith
  have hrow := rowTotal_errL R n h hU input hi hx hX0 hM hX
  refine ⟨fun r hr => (hrow r hr).1, ?_⟩
  have hE := embed_unitary n U.indices hU.nodup hU.lt (opMat U) hU.unitary
  set s : ℕ → ℝ := fun r => ((rowItems U (f2s n U.indices r)).map fun e => ‖e.2‖ * ‖vals val input (s2f n U.indices e.1 r)‖).sum with hs
  have hs0 : ∀ r, 0 ≤ s r := by
    intro r
    apply List.sum_nonneg
    intro y hy
    rw [List.mem_map] at hy
    obtain ⟨e, -, rfl⟩ := hy
    positivity
  refine (nrm_le_add n _ (fun r => ((1 + u) ^ (w + 2) - 1) * s r) _ (by positivity) (fun r hr => (hrow r hr).2)
    (fun r => mul_nonneg h0 (hs0 r))).trans (add_le_add ?_ le_rfl)
  have rows : ∀ r ∈ range (2 ^ n), (((1 + u) ^ (w + 2) - 1) * s r) ^ 2 ≤
        ((1 + u) ^ (w + 2) - 1) ^ 2 * (w *
          ∑ c ∈ range (2 ^ n), ‖embed n U.indices (opMat U) r c‖ ^ 2 * ‖vals val input c‖ ^ 2) := by
    intro r hr
    rw [mem_range] at hr
    rw [mul_pow]
    refine mul_le_mul_of_nonneg_left ?_ (sq_nonneg _)
    refine (list_sq_le _ _ w ((rowItems_width U _).trans hU.width)).trans (le_of_eq ?_)
    congr 1
    obtain ⟨l, hl, hrows⟩ := items_spec U hU.wf (f2s n U.indices r) (f2s_lt _ _ _)
    rw [items_rows U hU.wf _ (f2s_lt _ _ _)] at hl
    injection hl with hl
    subst hl
    have := hrows.sq_sum (rowItems_nodup U hU.distinct _) (fun c => ‖vals val input (s2f n U.indices c r)‖ ^ 2)
    simp only [mul_pow]
    rw [this, embed_sum n U.indices hU.nodup hU.lt (fun a b => ‖opMat U a b‖ ^ 2) (fun c => ‖vals val input c‖ ^ 2) r hr]
    apply sum_congr rfl
    intro c _
    congr 1
    unfold embed
    split <;> simp
  have hsum : ∑ r ∈ range (2 ^ n), (((1 + u) ^ (w + 2) - 1) * s r) ^ 2 ≤
      (((1 + u) ^ (w + 2) - 1) * Real.sqrt w * nrm n (vals val input)) ^ 2 := by
    rw [mul_pow, mul_pow, Real.sq_sqrt (by positivity), nrm_sq]
    refine (sum_le_sum rows).trans (le_of_eq ?_)
    rw [← mul_sum, ← mul_sum, sum_comm, mul_assoc]
    congr 2
    apply sum_congr rfl
    intro c hc
    rw [← sum_mul, unitary_col n _ hE c (mem_range.mp hc), one_mul]
  have := Real.sqrt_le_sqrt hsum
  rwa [Real.sqrt_sq (mul_nonneg (mul_nonneg h0 (Real.sqrt_nonneg _)) (nrm_nonneg _ _))] at this

end rows

end Verif
