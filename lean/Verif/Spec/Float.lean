import Verif.Model.Iter
import Verif.Spec.Matrix
import Mathlib.Analysis.Complex.Basic
import Mathlib.Analysis.SpecialFunctions.Pow.Real

/-!
# Specification: arithmetic with rounding
-/

namespace Verif

section
variable {F : Type} [Zero F] [One F]

/-- The op only moves amplitudes: row `r` of its matrix has a 1 in column `π r` and 0 elsewhere (a sparse row holds just that entry). -/
def MatrixOp.Carries : MatrixOp F → (ℕ → ℕ) → Prop
  | .matrix idx data, π => ∀ r, r < 2 ^ idx.length → π r < 2 ^ idx.length ∧
      ∀ c, c < 2 ^ idx.length → data[r * 2 ^ idx.length + c]? = some (if c = π r then 1 else 0)
  | .sparse idx rows, π => ∀ r, r < 2 ^ idx.length → rows[r]? = some [(π r, 1)]
  | .swap a _, π => ∀ r, r < 2 ^ (a * 2) → π r < 2 ^ (a * 2) ∧
      ∀ i, i < a → (π r).testBit i = r.testBit (a + i) ∧ (π r).testBit (a + i) = r.testBit i
  | .control nc idx op, π => ∃ π', op.Carries π' ∧ ∀ r, r < 2 ^ idx.length → π r < 2 ^ idx.length ∧
      if ∀ i, i < nc → r.testBit (idx.length - nc + i) = true then
        (∀ i, i < nc → (π r).testBit (idx.length - nc + i) = true) ∧
          π r % 2 ^ (idx.length - nc) = π' (r % 2 ^ (idx.length - nc))
      else π r = r

/-- After the gates `gs` (qubits and the way they move the basis states) the amplitude of `r` is the one `c` had before. -/
def Source (n : ℕ) : List (List ℕ × (ℕ → ℕ)) → ℕ → ℕ → Prop
  | [], r, c => r = c
  | g :: gs, r, c => ∃ m, m < 2 ^ n ∧ Source n gs r m ∧ AgreeOff n g.1 m c ∧ readQubits n g.1 c = g.2 (readQubits n g.1 m)

end

/-- Machine numbers `F` with values `val` and unit roundoff `u`: zero and one are exact, adding to zero is exact, and every sum and
product is correct up to a factor `1 + δ` with `‖δ‖ ≤ u` (no overflow, no underflow). -/
structure Rounds {F : Type} [Zero F] [One F] [Add F] [Mul F] (val : F → ℂ) (u : ℝ) : Prop where
  nonneg : 0 ≤ u
  lt_one : u < 1
  val_zero : val 0 = 0
  val_one : val 1 = 1
  val_inj_zero : ∀ a, val a = 0 → a = 0
  zero_add : ∀ a : F, 0 + a = a
  add : ∀ a b, ‖val (a + b) - (val a + val b)‖ ≤ u * ‖val a + val b‖
  mul : ∀ a b, ‖val (a * b) - val a * val b‖ ≤ u * ‖val a * val b‖

/-- `a` is stored for the number `z` with relative error at most `u` -/
def Near {F : Type} (val : F → ℂ) (u : ℝ) (a : F) (z : ℂ) : Prop := ‖val a - z‖ ≤ u * ‖z‖

/-- `op` is the op `U` with its entries stored with relative error at most `u` -/
inductive Stores {F : Type} (val : F → ℂ) (u : ℝ) : MatrixOp F → MatrixOp ℂ → Prop
  | matrix (idx : List ℕ) (d : List F) (d' : List ℂ) : List.Forall₂ (Near val u) d d' → Stores val u (.matrix idx d) (.matrix idx d')
  | sparse (idx : List ℕ) (rows : List (List (ℕ × F))) (rows' : List (List (ℕ × ℂ))) :
      List.Forall₂ (List.Forall₂ fun e e' => e.1 = e'.1 ∧ Near val u e.2 e'.2) rows rows' →
      Stores val u (.sparse idx rows) (.sparse idx rows')
  | swap (a : ℕ) (idx : List ℕ) : Stores val u (.swap a idx) (.swap a idx)
  | control (nc : ℕ) (idx : List ℕ) (op : MatrixOp F) (U : MatrixOp ℂ) : Stores val u op U →
      Stores val u (.control nc idx op) (.control nc idx U)

/-- no row of a sparse matrix names a column twice -/
def MatrixOp.Distinct {K : Type} : MatrixOp K → Prop
  | .sparse _ rows => ∀ row ∈ rows, (row.map Prod.fst).Nodup
  | .control _ _ op => op.Distinct
  | _ => True

/-- at most this many entries of a row are not zero -/
def MatrixOp.width {K : Type} : MatrixOp K → ℕ
  | .matrix idx _ => 2 ^ idx.length
  | .sparse _ rows => (rows.map List.length).foldr max 1
  | .swap _ _ => 1
  | .control _ _ op => op.width

/-- Euclidean length of a vector of `2^n` amplitudes -/
noncomputable def nrm (n : ℕ) (f : ℕ → ℂ) : ℝ := Real.sqrt (∑ r ∈ Finset.range (2 ^ n), ‖f r‖ ^ 2)

/-- the values of a stored state -/
noncomputable def vals {F : Type} (val : F → ℂ) (v : List F) (r : ℕ) : ℂ := ((v[r]?).map val).getD 0

/-- a `2^n × 2^n` matrix applied to a vector -/
noncomputable def mulVec (n : ℕ) (M : ℕ → ℕ → ℂ) (f : ℕ → ℂ) (r : ℕ) : ℂ := ∑ c ∈ Finset.range (2 ^ n), M r c * f c

/-- ops with exact entries, applied one after the other in exact arithmetic -/
noncomputable def exactRun (n : ℕ) (Us : List (MatrixOp ℂ)) (f : ℕ → ℂ) : ℕ → ℂ :=
  Us.foldl (fun f U => mulVec n (embed n U.indices (opMat U)) f) f

/-- a unitary op on distinct qubits below `n` with at most `w` entries in a row -/
structure UnitaryOn (n w : ℕ) (U : MatrixOp ℂ) : Prop where
  wf : U.WF
  distinct : U.Distinct
  nodup : U.indices.Nodup
  lt : ∀ i ∈ U.indices, i < n
  unitary : IsUnitary U.indices.length (opMat U)
  width : U.width ≤ w

/-- relative error of one op with at most `w` entries in a row: one rounding when the entry is stored, one for the product,
`w - 1` for the sum -/
noncomputable def opErr (u : ℝ) (w : ℕ) : ℝ := ((1 + u) ^ (w + 1) - 1) * Real.sqrt w

/-! ### Binary floating point numbers -/

/-- a number with at most `p` binary digits and any exponent -/
def IsBinary (p : ℕ) (x : ℝ) : Prop := ∃ m e : ℤ, |m| < 2 ^ p ∧ x = m * (2 : ℝ) ^ e

/-- `fl` rounds to a nearest number with `p` binary digits, ties in any way -/
structure Nearest (p : ℕ) (fl : ℝ → ℝ) : Prop where
  binary : ∀ x, IsBinary p (fl x)
  nearest : ∀ x y, IsBinary p y → |fl x - x| ≤ |y - x|

/-- complex numbers both of whose parts have at most `p` binary digits -/
def Bin (p : ℕ) : Type := { z : ℂ // IsBinary p z.re ∧ IsBinary p z.im }

theorem isBinary_zero (p : ℕ) : IsBinary p 0 := ⟨0, 0, by simp, by simp⟩

theorem isBinary_one (p : ℕ) (hp : 1 ≤ p) : IsBinary p 1 := ⟨1, 0, by
  rw [abs_one]; exact_mod_cast Nat.one_lt_two_pow (by omega), by simp⟩

variable {p : ℕ} {fl : ℝ → ℝ}

/-- the arithmetic of `num_complex::Complex` on parts that are rounded by `fl`: sums part by part, products as
`(ac - bd, ad + bc)` -/
structure BinOps (p : ℕ) (fl : ℝ → ℝ) where
  near : Nearest p fl
  hp : 2 ≤ p

/-- zero -/
def BinOps.zero (_ : BinOps p fl) : Bin p := ⟨0, by simpa using isBinary_zero p, by simpa using isBinary_zero p⟩

/-- one -/
def BinOps.one (B : BinOps p fl) : Bin p :=
  ⟨1, by simpa using isBinary_one p (by have := B.hp; omega), by simpa using isBinary_zero p⟩

/-- rounded sum -/
def BinOps.add (B : BinOps p fl) (a b : Bin p) : Bin p :=
  ⟨⟨fl (a.1.re + b.1.re), fl (a.1.im + b.1.im)⟩, B.near.binary _, B.near.binary _⟩

/-- rounded product -/
def BinOps.mul (B : BinOps p fl) (a b : Bin p) : Bin p :=
  ⟨⟨fl (fl (a.1.re * b.1.re) - fl (a.1.im * b.1.im)), fl (fl (a.1.re * b.1.im) + fl (a.1.im * b.1.re))⟩,
    B.near.binary _, B.near.binary _⟩

/-- the numbers of the arithmetic `B` -/
def BinOps.Num (_ : BinOps p fl) : Type := Bin p

/-- their values -/
def BinOps.val (B : BinOps p fl) (a : B.Num) : ℂ := Subtype.val a

instance (B : BinOps p fl) : Zero B.Num := ⟨B.zero⟩
instance (B : BinOps p fl) : One B.Num := ⟨B.one⟩
instance (B : BinOps p fl) : Add B.Num := ⟨B.add⟩
instance (B : BinOps p fl) : Mul B.Num := ⟨B.mul⟩
noncomputable instance (B : BinOps p fl) : DecidableEq B.Num := Classical.decEq _

/-- relative error of a product of rounded complex numbers -/
noncomputable def binErr (p : ℕ) : ℝ := Real.sqrt 2 * (2 * (2 : ℝ)⁻¹ ^ p + ((2 : ℝ)⁻¹ ^ p) ^ 2)

end Verif
