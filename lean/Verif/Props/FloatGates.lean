import Verif.Proofs.FloatGates
import Verif.Props.Freq

/-!
# Property C122: the entries of the gates computed in floating point arithmetic
-/

namespace Verif.Props
open Verif MatrixOp Format.Arith Finset

variable {f : Format} {fl : ℝ → ℝ}

/-- C122, one gate. Cosine, sine and the constants are correct up to `u`, the conversion of a ratio up to the relative error `2u`. For a gate whose numbers are finite and
whose rational angle is at most `Θ`, the op computed as in the code stores the exact op: all entries are finite, zeros are zeros, and the relative error of every entry
is at most `√2·u·max(2, 1 + Θ)`, up to underflow. On wrong qubits both give the same error. -/
theorem C122_entries (A : f.Arith fl) (h4 : 4 ≤ f.p) (L : StdLib f) (u : ℝ) (hL : L.Accurate u) (Θ : ℝ) (hΘ : Θ ≤ f.top / 4) (idx : List ℕ) (g : UObjP f)
    (hg : g.Within Θ) : SameOp A (Real.sqrt 2 * u * max 2 (1 + Θ)) f.absErr (unitaryOpP A L idx g) (unitaryOp idx g.exact) := by
  have hu : 0 ≤ u := by
    obtain ⟨y, -, hy⟩ := hL.invSqrt2
    exact (abs_nonneg _).trans hy
  have hs := mul_nonneg (Real.sqrt_nonneg 2) hu
  refine unitaryOpP_same A h4 L u hL Θ hΘ _ ?_ ?_ idx g hg
  · rw [show Real.sqrt 2 * (2 * u) = Real.sqrt 2 * u * 2 by ring]
    exact mul_le_mul_of_nonneg_left (le_max_left _ _) hs
  · rw [show Real.sqrt 2 * (u + u * Θ) = Real.sqrt 2 * u * (1 + Θ) by ring]
    exact mul_le_mul_of_nonneg_left (le_max_right _ _) hs

/-- rational angles up to one: the error is that of C87 -/
theorem entries_one (A : f.Arith fl) (h4 : 4 ≤ f.p) (L : StdLib f) (hL : L.Accurate f.eps) (idx : List ℕ) (g : UObjP f)
    (hg : g.Within 1) : SameOp A f.relErr f.absErr (unitaryOpP A L idx g) (unitaryOp idx g.exact) := by
  have h1 : Real.sqrt 2 * (2 * f.eps) ≤ f.relErr := by
    show _ ≤ Real.sqrt 2 * (2 * f.eps + f.eps ^ 2)
    exact mul_le_mul_of_nonneg_left (by nlinarith [sq_nonneg f.eps]) (Real.sqrt_nonneg 2)
  refine unitaryOpP_same A h4 L f.eps hL 1 ?_ _ h1 ?_ idx g hg
  · have := top_ge A
    linarith
  · rw [mul_one, ← two_mul]
    exact h1

/-- an entry of a user matrix stores the one that is meant -/
theorem entry_stored (A : f.Arith fl) (a : A.Num) (z : ℂ) (h : EntryMeant a z) : StoredAs A.fin A.val f.relErr f.absErr a z := by
  obtain ⟨h1, h2, h3, h4⟩ := h
  refine ⟨⟨h1, h2⟩, h3, fun h0 => ?_⟩
  obtain ⟨z1, z2⟩ := h4 h0
  obtain ⟨x, y, rfl⟩ := fin_cases A a ⟨h1, h2⟩
  have hx : x.1 = 0 := z1
  have hy : y.1 = 0 := z2
  show ((some x, some y) : A.Num) = ((A.round 0, A.round 0) : A.Num)
  rw [Format.Arith.round_zero]
  have ex : x = ⟨0, fits_zero f, by rw [abs_zero]; linarith [top_ge A]⟩ := Subtype.ext hx
  have ey : y = ⟨0, fits_zero f, by rw [abs_zero]; linarith [top_ge A]⟩ := Subtype.ext hy
  rw [ex, ey]

/-- an element computed as in the code holds the exact element -/
theorem elem_ok (A : f.Arith fl) (h4 : 4 ≤ f.p) (L : StdLib f) (hL : L.Accurate f.eps) (n : ℕ) (c : List ℕ × ObjTypeP f) (e : List ℕ × CObj) (hm : Meant c e)
    (he : AnyElem n e) (hw : c.2.Within 1) : ∃ el, elemP A L c = .ok el ∧ ElemAsC A el e := by
  obtain ⟨idx, o⟩ := c
  obtain ⟨idx', w, o'⟩ := e
  obtain ⟨h1, h2⟩ := hm
  have h1 : idx' = idx := h1
  subst h1
  rcases h2 with h2 | ⟨data, d, h2, h3, h4⟩ | ⟨x, θ, h2, h3, h5⟩
  rotate_left
  · have h2 : o = .unitary (.MAT data) := h2
    have h3 : o' = .unitary (.MAT d) := h3
    subst h2 h3
    have hs : (UObj.MAT d).Shape idx'.length := by
      rcases he with (⟨⟨⟨-, -, h3⟩, -⟩, -⟩ | ⟨h1, -⟩) | ⟨⟨ρ, h1⟩ | h1, -⟩
      · exact h3 _ rfl
      · cases h1
      · cases h1
      · cases h1
    obtain ⟨U, u1, -⟩ := unitaryOp_ok idx' (.MAT d) hs (by simp)
    have k : SameOp A f.relErr f.absErr (unitaryOpP A L idx' (.MAT data)) (unitaryOp idx' (.MAT d)) :=
      matrix_same A _ _ idx' data d (h4.imp fun a z h => entry_stored A a z h)
    rw [u1] at k
    have e : elemP A L (idx', .unitary (.MAT data)) = match unitaryOpP A L idx' (.MAT data) with
        | .ok op => .ok (.op op)
        | .error _ => .error .panic := rfl
    rw [e]
    cases hop : unitaryOpP A L idx' (.MAT data) with
    | error a => rw [hop] at k; exact k.elim
    | ok op =>
      rw [hop] at k
      exact ⟨_, rfl, .gate op U idx' w _ u1 k⟩
  · have h2 : o = .unitary (.Rz (.floating (some x))) := h2
    have h3 : o' = .unitary (.Rz (.floating θ)) := h3
    subst h2 h3
    have hs : (UObj.Rz (.floating θ)).Shape idx'.length := by
      rcases he with (⟨⟨⟨-, -, h3⟩, -⟩, -⟩ | ⟨h1, -⟩) | ⟨⟨ρ, h1⟩ | h1, -⟩
      · exact h3 _ rfl
      · cases h1
      · cases h1
      · cases h1
    obtain ⟨U, u1, -⟩ := unitaryOp_ok idx' (.Rz (.floating θ)) hs (by simp)
    have k : SameOp A f.relErr f.absErr (unitaryOpP A L idx' (.Rz (.floating (some x)))) (unitaryOp idx' (.Rz (.floating θ))) :=
      rz_same A h4 L f.eps hL _ (A.limits h4).u_nonneg idx' _ _ x rfl f.eps (eps_pos f).le h5 (by
        show _ ≤ Real.sqrt 2 * (2 * f.eps + f.eps ^ 2)
        exact mul_le_mul_of_nonneg_left (by nlinarith [sq_nonneg f.eps]) (Real.sqrt_nonneg 2))
    rw [u1] at k
    have e : elemP A L (idx', .unitary (.Rz (.floating (some x)))) = match unitaryOpP A L idx' (.Rz (.floating (some x))) with
        | .ok op => .ok (.op op)
        | .error _ => .error .panic := rfl
    rw [e]
    cases hop : unitaryOpP A L idx' (.Rz (.floating (some x))) with
    | error a => rw [hop] at k; exact k.elim
    | ok op =>
      rw [hop] at k
      exact ⟨_, rfl, .gate op U idx' w _ u1 k⟩
  have h2 : o' = o.exact := h2
  subst h2
  cases o with
  | meas m => cases m with
    | measurement => exact ⟨_, rfl, .measurement _ _⟩
    | stochastic => exact ⟨_, rfl, .stochastic _ _⟩
  | unitary g =>
    by_cases hg : ∃ ρ, g = .GlobalPhase ρ
    · obtain ⟨ρ, rfl⟩ := hg
      exact ⟨_, rfl, .phase _ _ _⟩
    · have hg' : ∀ ρ, g.exact ≠ .GlobalPhase ρ := by
        intro ρ hρ
        cases g <;> first | exact hg ⟨_, rfl⟩ | cases hρ
      have hs : g.exact.Shape idx'.length := by
        rcases he with (⟨⟨⟨-, -, h3⟩, -⟩, -⟩ | ⟨h1, -⟩) | ⟨⟨ρ, h1⟩ | h1, -⟩
        · exact h3 _ rfl
        · cases h1
        · exact absurd (by injection h1) (hg' ρ)
        · cases h1
      obtain ⟨U, u1, -⟩ := unitaryOp_ok idx' g.exact hs hg'
      have k := entries_one A h4 L hL idx' g hw
      rw [u1] at k
      have e : elemP A L (idx', .unitary g) = match unitaryOpP A L idx' g with
          | .ok op => .ok (.op op)
          | .error _ => .error .panic := by
        cases g <;> first | rfl | exact absurd ⟨_, rfl⟩ hg
      rw [e]
      cases hop : unitaryOpP A L idx' g with
      | error a => rw [hop] at k; exact k.elim
      | ok op =>
        rw [hop] at k
        exact ⟨_, rfl, .gate op U idx' w _ u1 k⟩

/-- C122, whole circuits: computing the entries of all gates ends without a panic, and the elements so obtained are such as C88, C119 and C121 speak of. The functions of the
standard library are correct to one unit in the last place, and rational angles are at most one. -/
theorem C122_elements (A : f.Arith fl) (h4 : 4 ≤ f.p) (L : StdLib f) (hL : L.Accurate f.eps) (n : ℕ) (c : List (List ℕ × ObjTypeP f)) (p : Pipeline)
    (hm : List.Forall₂ Meant c p) (hp : ∀ e ∈ p, AnyElem n e) (hw : ∀ e ∈ c, e.2.Within 1) :
    ∃ els, c.mapM (elemP A L) = .ok els ∧ List.Forall₂ (ElemAsC A) els p := by
  induction hm with
  | nil => exact ⟨[], rfl, .nil⟩
  | @cons a e c p h _ ih =>
    obtain ⟨els, h1, h2⟩ := ih (fun e he => hp e (by simp [he])) (fun e he => hw e (by simp [he]))
    obtain ⟨el, k1, k2⟩ := elem_ok A h4 L hL n a e h (hp e (by simp)) (hw a (by simp))
    exact ⟨el :: els, by rw [List.mapM_cons, k1, h1]; rfl, .cons k2 h2⟩

open Classical in
/-- C122, a calculation with gates, global phases and stochastic measurements, all of it in floating point arithmetic: from the constants, angles and ratios of the circuit to
the reported probabilities. Nothing panics, and the results are those of exact arithmetic up to the bounds of C119. -/
theorem C122_stochastic (A : f.Arith fl) (hf : 10 ≤ f.p) (he : f.emin + 2 * f.p + 4 ≤ 0) (L : StdLib f) (hL : L.Accurate f.eps) (b : LocalBuilder)
    (hN : 2 ^ b.n * f.eps ≤ 1 / 64) (it : List (Reg × ℕ)) (h : ∀ p ∈ it, ∀ q ∈ p.1, q < b.n)
    (hp : ∀ e ∈ b.pipeline, AnyElem b.n e ∧ e.2.object ≠ .meas .measurement) (c : List (List ℕ × ObjTypeP f)) (hm : List.Forall₂ Meant c b.pipeline)
    (hw : ∀ e ∈ c, e.2.Within 1) (rnds : ℕ → f.Fin) (hE : (circuitCost b.pipeline : ℝ) * f.eps ≤ 1) :
    ∃ els i v ms, c.mapM (elemP A L) = .ok els ∧ initialIndex b.n it = some i ∧ b.calculateStateWithInit it (fun k => (rnds k).1) = some (v, ms) ∧
      (∃ t, RunsC A.prec (fun c : A.Num => c) (fun c => c) b.n (fun k => some (rnds k)) els
        ⟨(List.replicate (2 ^ b.n) 0).set i 1, List.replicate (2 ^ b.n) 0, []⟩ t) ∧
      ∀ t, RunsC A.prec (fun c : A.Num => c) (fun c => c) b.n (fun k => some (rnds k)) els
        ⟨(List.replicate (2 ^ b.n) 0).set i 1, List.replicate (2 ^ b.n) 0, []⟩ t →
        List.Forall₂ (SameResult f ((circuitCost b.pipeline : ℝ) * f.eps * (2 + (circuitCost b.pipeline : ℝ) * f.eps) + 24 * (2 ^ b.n * f.eps)))
          t.measurements ms ∧ t.state.length = 2 ^ b.n ∧ (∀ c ∈ t.state, A.fin c) ∧
          nrm b.n (fun r => vals A.val t.state r - vals id v r) ≤ (circuitCost b.pipeline : ℝ) * f.eps := by
  obtain ⟨els, h1, h2⟩ := C122_elements A (by omega) L hL b.n c b.pipeline hm (fun e he => (hp e he).1) hw
  obtain ⟨i, v, ms, k⟩ := C119_stochastic A hf he b hN it h hp els h2 rnds hE
  exact ⟨els, i, v, ms, h1, k⟩

open Classical in
/-- ... and with measurements whose draws are not near a sum at which an outcome changes -/
theorem C122_circuit (A : f.Arith fl) (hf : 10 ≤ f.p) (he : f.emin + 2 * f.p + 4 ≤ 0) (L : StdLib f) (hL : L.Accurate f.eps) (b : LocalBuilder)
    (hN : 2 ^ b.n * f.eps ≤ 1 / 64) (it : List (Reg × ℕ)) (h : ∀ p ∈ it, ∀ q ∈ p.1, q < b.n) (hp : ∀ e ∈ b.pipeline, AnyElem b.n e)
    (c : List (List ℕ × ObjTypeP f)) (hm : List.Forall₂ Meant c b.pipeline) (hw : ∀ e ∈ c, e.2.Within 1) (rnds : ℕ → f.Fin)
    (hr : (∃ e ∈ b.pipeline, e.2.object = .meas .measurement) → ∀ k, 0 < (rnds k).1 ∧ (rnds k).1 < 1) (κ δ : ℝ)
    (hc : ∀ i, initialIndex b.n it = some i → ClearC f b.n (fun k => (rnds k).1) κ b.pipeline
      ⟨(List.replicate (2 ^ b.n) 0).set i 1, List.replicate (2 ^ b.n) 0, []⟩ 0 0 δ) :
    ∃ els i v ms, c.mapM (elemP A L) = .ok els ∧ initialIndex b.n it = some i ∧ b.calculateStateWithInit it (fun k => (rnds k).1) = some (v, ms) ∧
      (∃ t, RunsC A.prec (fun c : A.Num => c) (fun c => c) b.n (fun k => some (rnds k)) els
        ⟨(List.replicate (2 ^ b.n) 0).set i 1, List.replicate (2 ^ b.n) 0, []⟩ t) ∧
      ∀ t, RunsC A.prec (fun c : A.Num => c) (fun c => c) b.n (fun k => some (rnds k)) els
        ⟨(List.replicate (2 ^ b.n) 0).set i 1, List.replicate (2 ^ b.n) 0, []⟩ t →
        List.Forall₂ (SameResult f κ) t.measurements ms ∧ t.state.length = 2 ^ b.n ∧ (∀ c ∈ t.state, A.fin c) ∧
          nrm b.n (fun r => vals A.val t.state r - vals id v r) ≤ δ := by
  obtain ⟨els, h1, h2⟩ := C122_elements A (by omega) L hL b.n c b.pipeline hm hp hw
  obtain ⟨i, v, ms, k⟩ := C119_circuit A hf he b hN it h hp els h2 rnds hr κ δ hc
  exact ⟨els, i, v, ms, h1, k⟩

/-- an element of the loop of C88 and C121 as one of the loop of C119 -/
def elemOf {K : Type} : ElemP K → ElemC K
  | .op o => .op o
  | .measurement idx => .measurement idx

/-- C122, circuits of gates and measurements: the elements computed are such as C88 and C121 speak of. -/
theorem C122_measured (A : f.Arith fl) (h4 : 4 ≤ f.p) (L : StdLib f) (hL : L.Accurate f.eps) (n : ℕ) (c : List (List ℕ × ObjTypeP f)) (p : Pipeline)
    (hm : List.Forall₂ Meant c p) (hp : ∀ e ∈ p, GateOrMeasure n e) (hw : ∀ e ∈ c, e.2.Within 1) :
    ∃ els : List (ElemP A.Num), c.mapM (elemP A L) = .ok (els.map elemOf) ∧ List.Forall₂ (ElemAs A) els p := by
  obtain ⟨els, h1, h2⟩ := C122_elements A h4 L hL n c p hm (fun e he => .inl (hp e he)) hw
  suffices ∃ els' : List (ElemP A.Num), els = els'.map elemOf ∧ List.Forall₂ (ElemAs A) els' p by
    obtain ⟨els', rfl, h⟩ := this
    exact ⟨els', h1, h⟩
  clear h1 hm hw
  induction h2 with
  | nil => exact ⟨[], rfl, .nil⟩
  | @cons el e els p h _ ih =>
    obtain ⟨els', rfl, h'⟩ := ih fun e he => hp e (by simp [he])
    have he := hp e (by simp)
    cases h with
    | gate op U idx w g u1 u2 => exact ⟨.op op :: els', rfl, .cons (.gate op U idx w g u1 u2) h'⟩
    | measurement idx w => exact ⟨.measurement idx :: els', rfl, .cons (.measurement idx w) h'⟩
    | phase idx w ρ =>
      rcases he with ⟨⟨-, -, u, hu, hn⟩, -⟩ | ⟨h, -⟩
      · exact absurd (by injection hu with hu; exact hu.symm) (hn ρ)
      · cases h
    | stochastic idx w =>
      rcases he with ⟨⟨-, -, u, hu, -⟩, -⟩ | ⟨h, -⟩
      · cases hu
      · cases h

open Classical in
/-- C122, measured frequencies: with the entries of all gates computed, the shares of the outcomes are the Born probabilities up to the bound of C121. -/
theorem C122_frequency (A : f.Arith fl) (hf : 10 ≤ f.p) (he : f.emin + 2 * f.p + 4 ≤ 0) (L : StdLib f) (hL : L.Accurate f.eps) (b : LocalBuilder)
    (hN : 2 ^ b.n * f.eps ≤ 1 / 64) (it : List (Reg × ℕ)) (h : ∀ p ∈ it, ∀ q ∈ p.1, q < b.n)
    (hp : ∀ e ∈ b.pipeline, SegU b.n e) (c : List (List ℕ × ObjTypeP f)) (hm : List.Forall₂ Meant c b.pipeline)
    (hw : ∀ e ∈ c, e.2.Within 1) (idx : List ℕ) (hn : idx.Nodup) (hidx : ∀ i ∈ idx, i < b.n) (hE : (circuitCost b.pipeline : ℝ) * f.eps ≤ 1) :
    ∃ els i v, (c ++ [(idx, ObjTypeP.meas .measurement)]).mapM (elemP A L) = .ok ((els ++ [ElemP.measurement idx]).map elemOf) ∧ initialIndex b.n it = some i ∧
      (∀ rnds, b.calculateStateWithInit it rnds = some (v, [])) ∧
      (∀ r : f.Fin, ∃ t, RunsP A.prec (fun c : A.Num => c) (fun c => c) b.n (fun _ => some r) (els ++ [.measurement idx])
        ⟨(List.replicate (2 ^ b.n) 0).set i 1, List.replicate (2 ^ b.n) 0, []⟩ t) ∧
      ∀ (N : ℕ) (_ : 0 < N) (τ : ℝ) (d : ℕ → f.Fin) (_ : ∀ j, j < N → |(d j).1 - (j : ℝ) / N| ≤ τ) (run : ℕ → StateP A.Num f.Part)
        (_ : ∀ j, j < N → RunsP A.prec (fun c : A.Num => c) (fun c => c) b.n (fun _ => some (d j)) (els ++ [.measurement idx])
          ⟨(List.replicate (2 ^ b.n) 0).set i 1, List.replicate (2 ^ b.n) 0, []⟩ (run j)) (m : ℕ) (_ : m < 2 ^ idx.length),
        |(((range N).filter fun j => ∃ p, (run j).measurements = [(m, p)]).card : ℝ) / N - bornProb b.n idx m (vals id v)| ≤
          (2 ^ b.n + 1) * (2 * ((circuitCost b.pipeline : ℝ) * f.eps * (2 + (circuitCost b.pipeline : ℝ) * f.eps) + 20 * (2 ^ b.n * f.eps) + τ) + 1 / N) +
            2 ^ b.n / N := by
  obtain ⟨els, h1, h2⟩ := C122_measured A (by omega) L hL b.n c b.pipeline hm (fun e he => .inl (hp e he)) hw
  obtain ⟨i, v, k⟩ := C121_frequency A hf he b hN it h hp els h2 idx hn hidx hE
  refine ⟨els, i, v, ?_, k⟩
  rw [List.mapM_append, h1, List.map_append]
  rfl

/-- the error of one gate for a larger relative error -/
theorem gate_step_of (f : Format) (n : ℕ) (hn : n + 2 * f.emin + 2 * f.p + 14 ≤ 0) (v : ℝ) (hv : f.eps ≤ v) (hv' : v ≤ 1 / 16) :
    0 ≤ stepErr v f.absErr n 2 ∧ stepErr v f.absErr n 2 ≤ 8 * v := by
  have hd0 : (0 : ℝ) < f.eps := eps_pos f
  have h2 := Format.Arith.sqrt_two_lt
  have a3 : Real.sqrt (2 ^ n) * (2 : ℝ) ^ (f.emin + 7) ≤ f.eps := by
    have e : f.eps = (2 : ℝ) ^ (-(f.p : ℤ)) := by
      show (2 : ℝ)⁻¹ ^ f.p = _
      rw [inv_pow, zpow_neg, zpow_natCast]
    rw [e, ← le_div_iff₀ (by positivity), Real.sqrt_le_left (by positivity), div_pow, ← zpow_natCast, ← zpow_natCast, ← zpow_natCast,
      ← zpow_mul, ← zpow_mul, ← zpow_sub₀ (by norm_num)]
    apply zpow_le_zpow_right₀ (by norm_num)
    push_cast
    linarith
  have e7 : (2 : ℝ) ^ (f.emin + 7) = 128 * (2 : ℝ) ^ f.emin := by
    rw [zpow_add₀ (by norm_num)]; norm_num; ring
  rw [e7] at a3
  have hm : (0 : ℝ) < (2 : ℝ) ^ f.emin := by positivity
  have hs := Real.sqrt_nonneg (2 ^ n)
  have hv0 : 0 < v := hd0.trans_le hv
  unfold stepErr Format.absErr
  have a1 : (1 + v) ^ (2 + 2) - 1 ≤ 9 / 2 * v := by
    have e : (1 + v) ^ (2 + 2) - 1 = v * (4 + v * (6 + 4 * v + v * v)) := by ring
    rw [e, mul_comm]
    have b1 : 6 + 4 * v + v * v ≤ 7 := by nlinarith
    have b2 : v * (6 + 4 * v + v * v) ≤ 1 / 16 * 7 := mul_le_mul hv' b1 (by positivity) (by norm_num)
    exact mul_le_mul_of_nonneg_right (by linarith) hv0.le
  have a0 : 0 ≤ (1 + v) ^ (2 + 2) - 1 := by
    have : (1 : ℝ) ≤ (1 + v) ^ (2 + 2) := one_le_pow₀ (by linarith)
    linarith
  have a5 : ((1 + v) ^ (2 + 2) - 1) * Real.sqrt (2 : ℕ) ≤ 9 / 2 * v * (3 / 2) :=
    mul_le_mul a1 (by push_cast; exact h2.le) (Real.sqrt_nonneg _) (by positivity)
  have a4 : (1 + v) ^ 2 ≤ 3 / 2 := by nlinarith
  have a6 : Real.sqrt (2 ^ n) * ((1 + v) ^ 2 * ((2 : ℕ) * (6 * (6 * (2 : ℝ) ^ f.emin)))) ≤ Real.sqrt (2 ^ n) * (128 * (2 : ℝ) ^ f.emin) := by
    apply mul_le_mul_of_nonneg_left _ hs
    push_cast
    nlinarith
  refine ⟨add_nonneg (mul_nonneg a0 (Real.sqrt_nonneg _)) (by positivity), (add_le_add a5 (a6.trans a3)).trans ?_⟩
  linarith

/-- with a larger error the limits hold as well -/
theorem limits_mono (A : f.Arith fl) (h4 : 4 ≤ f.p) (v : ℝ) (hv : f.relErr ≤ v) (hv' : v ≤ 1) : Limits A.fin A.val v f.absErr (f.top / 4) := by
  have R := A.limits h4
  exact { R with
    u_nonneg := R.u_nonneg.trans hv
    u_le_one := hv'
    add := fun a b ha hb h => ⟨(R.add a b ha hb h).1, (R.add a b ha hb h).2.trans (by
      have := mul_le_mul_of_nonneg_right hv (norm_nonneg (A.val a + A.val b)); linarith)⟩
    mul := fun a b ha hb h => ⟨(R.mul a b ha hb h).1, (R.mul a b ha hb h).2.trans (by
      have := mul_le_mul_of_nonneg_right hv (mul_nonneg (norm_nonneg (A.val a)) (norm_nonneg (A.val b))); linarith)⟩ }

open Classical in
/-- C122, rational angles of any size up to `Θ`: a circuit of gates other than user matrices gives the exact state up to `24(3 + Θ)·2^-p` for every gate. -/
theorem C122_angles (A : f.Arith fl) (hf : 10 ≤ f.p) (L : StdLib f) (hL : L.Accurate f.eps) (b : LocalBuilder) (it : List (Reg × ℕ))
    (h : ∀ p ∈ it, ∀ q ∈ p.1, q < b.n) (hn : b.n + 2 * f.emin + 2 * f.p + 14 ≤ 0) (hp : ∀ e ∈ b.pipeline, SegOK b.n e)
    (hm : ∀ e ∈ b.pipeline, ∀ data, e.2.object ≠ .unitary (.MAT data)) (Θ : ℝ) (hΘ : 0 ≤ Θ) (hΘ' : 24 * (3 + Θ) * f.eps ≤ 1)
    (hl : b.pipeline.length * (24 * (3 + Θ) * f.eps) ≤ 1) (c : List (List ℕ × ObjTypeP f)) (hc : List.Forall₂ Meant c b.pipeline)
    (hw : ∀ e ∈ c, e.2.Within Θ) (rnds : ℕ → ℝ) :
    ∃ ops i v out rest, c.mapM (elemP A L) = .ok (ops.map .op) ∧ initialIndex b.n it = some i ∧ b.calculateStateWithInit it rnds = some (v, []) ∧
      runOps b.n ops ((List.replicate (2 ^ b.n) 0).set i 1, List.replicate (2 ^ b.n) 0) = some (out, rest) ∧ (∀ a ∈ out, A.fin a) ∧
      nrm b.n (fun r => vals A.val out r - vals id v r) ≤ b.pipeline.length * (24 * (3 + Θ) * f.eps) := by
  have hd0 : (0 : ℝ) < f.eps := eps_pos f
  have h2 := Format.Arith.sqrt_two_lt
  have h1 : 1 ≤ Real.sqrt 2 := Real.one_le_sqrt.mpr (by norm_num)
  have hd1 : f.eps ≤ 1 := by
    have e : f.eps = (2 : ℝ)⁻¹ ^ f.p := rfl
    rw [e]
    exact pow_le_one₀ (by norm_num) (by norm_num)
  set x := (3 + Θ) * f.eps with hx
  have x0 : 0 < x := by positivity
  have x1 : 24 * x ≤ 1 := by rw [hx]; linarith
  set v := Real.sqrt 2 * x with hvd
  have v1 : v ≤ 3 / 2 * x := mul_le_mul_of_nonneg_right h2.le x0.le
  have v2 : f.eps ≤ v := by
    have : x ≤ v := by rw [hvd]; exact le_mul_of_one_le_left x0.le h1
    have : f.eps ≤ x := by rw [hx]; nlinarith
    linarith
  have v3 : f.relErr ≤ v := by
    show Real.sqrt 2 * (2 * f.eps + f.eps ^ 2) ≤ _
    refine mul_le_mul_of_nonneg_left ?_ (by linarith)
    rw [hx]
    nlinarith
  obtain ⟨s0, s1⟩ := gate_step_of f b.n hn v v2 (by linarith)
  have R := limits_mono A (by omega) v v3 (by linarith)
  have htop : (2046 : ℝ) ≤ f.top ∧ 4 * Θ ≤ f.top := by
    have t1 : (2 : ℝ) ^ (1 : ℤ) ≤ 2 ^ f.emax := zpow_le_zpow_right₀ (by norm_num) A.hi
    have t2 : (2 : ℝ) ^ 10 ≤ 2 ^ f.p := pow_le_pow_right₀ (by norm_num) hf
    have t3 : (2 ^ f.p - 1) * (2 : ℝ) ^ (1 : ℤ) ≤ (2 ^ f.p - 1) * (2 : ℝ) ^ f.emax :=
      mul_le_mul_of_nonneg_left t1 (by linarith [(by norm_num : (1 : ℝ) ≤ 2 ^ 10)])
    have t4 : f.top = (2 ^ f.p - 1) * (2 : ℝ) ^ f.emax := rfl
    rw [← t4, zpow_one] at t3
    refine ⟨by linarith [(by norm_num : (2 : ℝ) ^ 10 = 1024)], ?_⟩
    have t5 : f.eps * 2 ^ f.p = 1 := by
      show (2 : ℝ)⁻¹ ^ f.p * 2 ^ f.p = 1
      rw [← mul_pow]; norm_num
    have t6 : 24 * x * 2 ^ f.p ≤ 2 ^ f.p := by
      have := mul_le_mul_of_nonneg_right x1 (by positivity : (0 : ℝ) ≤ 2 ^ f.p)
      linarith
    have t7 : 24 * x * 2 ^ f.p = 24 * (3 + Θ) := by rw [hx]; linear_combination 24 * (3 + Θ) * t5
    rw [t7] at t6
    linarith [(by norm_num : (2 : ℝ) ^ 10 = 1024)]
  have hM : 8 * ((2 : ℕ) : ℝ) * (1 + v) ^ (2 + 2) ≤ f.top / 4 := by
    have a : (1 + v) ^ (2 + 2) ≤ 2 ^ (2 + 2) := pow_le_pow_left₀ (by linarith) (by linarith) _
    rw [show (2 : ℝ) ^ (2 + 2) = 16 by norm_num] at a
    rw [Nat.cast_ofNat]
    exact (mul_le_mul_of_nonneg_left a (by norm_num : (0 : ℝ) ≤ 8 * 2)).trans (by linarith [htop.1])
  have key : ∀ (c : List (List ℕ × ObjTypeP f)) (p : Pipeline), List.Forall₂ Meant c p → (∀ e ∈ p, SegOK b.n e) →
      (∀ e ∈ p, ∀ data, e.2.object ≠ .unitary (.MAT data)) → (∀ e ∈ c, e.2.Within Θ) →
      ∃ ops : List (MatrixOp A.Num), c.mapM (elemP A L) = .ok (ops.map .op) ∧ List.Forall₂ (fun op (e : List ℕ × CObj) => ∃ g U, e.2.object = .unitary g ∧
        unitaryOp e.1 g = .ok U ∧ StoresIn A.fin A.val v f.absErr op U) ops p := by
    intro c p hc hp hm hw
    induction hc with
    | nil => exact ⟨[], rfl, .nil⟩
    | @cons a e c p hae _ ih =>
      obtain ⟨ops, o1, o2⟩ := ih (fun e he => hp e (by simp [he])) (fun e he => hm e (by simp [he])) (fun e he => hw e (by simp [he]))
      obtain ⟨idx, o⟩ := a
      obtain ⟨idx', w, o'⟩ := e
      obtain ⟨a1, a2⟩ := hae
      have a1 : idx' = idx := a1
      subst a1
      obtain ⟨⟨-, -, e3⟩, -, u, hu1, hu2⟩ := hp (idx', ⟨w, o'⟩) (by simp)
      have hu1 : o' = .unitary u := hu1
      subst hu1
      have v4 : Real.sqrt 2 * (2 * f.eps) ≤ v := by
        refine mul_le_mul_of_nonneg_left ?_ (by linarith)
        rw [hx]; nlinarith
      obtain ⟨g, rfl, hg, k⟩ : ∃ g, o = .unitary g ∧ (∀ ρ, g ≠ .GlobalPhase ρ) ∧ SameOp A v f.absErr (unitaryOpP A L idx' g) (unitaryOp idx' u) := by
        rcases a2 with a2 | ⟨data, d, -, a2, -⟩ | ⟨y, θ, a2, a3, a4⟩
        · have a2 : .unitary u = o.exact := a2
          cases o with
          | meas m => cases a2
          | unitary g =>
            obtain rfl : g.exact = u := by injection a2 with a2; exact a2.symm
            refine ⟨g, rfl, ?_, unitaryOpP_same A (by omega) L f.eps hL Θ (by linarith [htop.2]) v v4 (by
              refine mul_le_mul_of_nonneg_left ?_ (by linarith)
              rw [hx]; nlinarith) idx' g (hw (idx', .unitary g) (by simp))⟩
            rintro ρ rfl
            exact hu2 _ rfl
        · exact absurd a2 (hm _ (by simp) d)
        · have a2 : o = .unitary (.Rz (.floating (some y))) := a2
          have a3 : ObjType.unitary u = .unitary (.Rz (.floating θ)) := a3
          injection a3 with a3
          subst a2 a3
          exact ⟨_, rfl, by simp, rz_same A (by omega) L f.eps hL v (by linarith) idx' _ _ y rfl f.eps hd0.le a4 (by rw [← two_mul]; exact v4)⟩
      obtain ⟨U, u1, -⟩ := unitaryOp_ok idx' u (e3 _ rfl) hu2
      rw [u1] at k
      cases hop : unitaryOpP A L idx' g with
      | error a => rw [hop] at k; exact k.elim
      | ok op =>
        rw [hop] at k
        refine ⟨op :: ops, ?_, .cons ⟨u, U, rfl, u1, k⟩ o2⟩
        have e : elemP A L (idx', .unitary g) = .ok (.op op) := by
          unfold elemP
          cases g <;> first | exact absurd rfl (hg _) | (simp only [hop])
        rw [List.mapM_cons, e, o1]
        rfl
  obtain ⟨ops, k1, hops⟩ := key c b.pipeline hc hp hm hw
  have hG : (b.pipeline.length : ℝ) * stepErr v f.absErr b.n 2 ≤ b.pipeline.length * (12 * x) :=
    mul_le_mul_of_nonneg_left (by linarith) (Nat.cast_nonneg _)
  have e24 : (b.pipeline.length : ℝ) * (24 * (3 + Θ) * f.eps) = 2 * (b.pipeline.length * (12 * x)) := by rw [hx]; ring
  have hpow := pow_le_linear _ s0 b.pipeline.length (by linarith)
  obtain ⟨i, w, out, rest, r1, r2, r3, r4, r5⟩ := C87_simulator R b it h hp (fun e he data hd => absurd hd (hm e he data)) rnds 2 hM ops (by
    rw [List.forall₂_iff_get] at hops ⊢
    refine ⟨hops.1, fun k h1 h2 => ?_⟩
    obtain ⟨g, U, a1, a2, a3⟩ := hops.2 k h1 h2
    have hmem : b.pipeline.get ⟨k, h2⟩ ∈ b.pipeline := List.get_mem _ _
    refine ⟨g, U, a1, a2, a3, unitaryOp_width _ g ((hp _ hmem).1.2.2 g a1) ?_ U a2⟩
    rintro data rfl
    exact hm _ hmem data a1) (by linarith)
  exact ⟨ops, i, w, out, rest, k1, r1, r2, r3, r4, r5.trans (by linarith)⟩

/-- numbers up to one are rounded with an error of at most `eps` -/
theorem round_unit (A : f.Arith fl) (x : ℝ) (hx : |x| ≤ 1) : ∃ y : f.Fin, A.round x = some y ∧ |y.1 - x| ≤ f.eps := by
  obtain ⟨y, y1, y2⟩ := round_some A x (by linarith [top_ge A])
  refine ⟨y, y1, ?_⟩
  rw [y2]
  have hone : ∀ s : ℤ, |s| = 1 → f.Fits s := fun s hs => ⟨s, 0, by
    rw [hs]; exact one_lt_pow₀ (by norm_num) (by have := A.hp; omega), by have := A.lo; omega, by simp⟩
  have hP : (0 : ℝ) < 2 ^ f.p := by positivity
  have he : f.eps * 2 ^ f.p = 1 := by
    show (2 : ℝ)⁻¹ ^ f.p * 2 ^ f.p = 1
    rw [← mul_pow]; norm_num
  have he0 := eps_pos f
  have hz : (2 : ℝ) ^ (-(f.p : ℤ)) = f.eps := by
    show _ = (2 : ℝ)⁻¹ ^ f.p
    rw [inv_pow, zpow_neg, zpow_natCast]
  rw [_root_.abs_le] at hx
  have hm1 := Int.floor_le (x * 2 ^ f.p)
  have hm2 := Int.lt_floor_add_one (x * 2 ^ f.p)
  set m := ⌊x * 2 ^ f.p⌋ with hm
  have hfit : f.Fits (m * f.eps) := by
    have b1 : (m : ℝ) ≤ 2 ^ f.p := by nlinarith
    have b2 : -(2 : ℝ) ^ f.p ≤ m := by
      have : (-(2 : ℤ) ^ f.p : ℤ) ≤ m := Int.le_floor.mpr (by push_cast; nlinarith)
      exact_mod_cast this
    have b1' : m ≤ 2 ^ f.p := by exact_mod_cast b1
    have b2' : -2 ^ f.p ≤ m := by exact_mod_cast b2
    by_cases c1 : m = 2 ^ f.p
    · have : (m : ℝ) * f.eps = (1 : ℤ) := by rw [c1]; push_cast; linarith
      rw [this]; exact hone 1 (by norm_num)
    by_cases c2 : m = -2 ^ f.p
    · have : (m : ℝ) * f.eps = (-1 : ℤ) := by rw [c2]; push_cast; linarith
      rw [this]; exact hone (-1) (by norm_num)
    exact ⟨m, -(f.p : ℤ), by rw [abs_lt]; omega, A.lo, by rw [hz]⟩
  refine (A.near.nearest x _ hfit).trans ?_
  have e : (m : ℝ) * f.eps - x = (m - x * 2 ^ f.p) * f.eps := by linear_combination x * he
  rw [e, abs_mul, abs_of_pos he0]
  have : |(m : ℝ) - x * 2 ^ f.p| ≤ 1 := by rw [_root_.abs_le]; constructor <;> linarith
  nlinarith

/-- functions and constants rounded to nearest -/
noncomputable def stdRounded (A : f.Arith fl) : StdLib f where
  cos x := x >>= fun x => A.round (Real.cos x.1)
  sin x := x >>= fun x => A.round (Real.sin x.1)
  invSqrt2 := A.round (1 / Real.sqrt 2)
  piQuarter := A.round (Real.pi / 4)
  ofRatio q := A.round q

/-- C122 (the condition can be met): functions and constants rounded to nearest are accurate enough. -/
theorem C122_accurate (A : f.Arith fl) : (stdRounded A).Accurate f.eps where
  cos x := round_unit A _ (Real.abs_cos_le_one _)
  sin x := round_unit A _ (Real.abs_sin_le_one _)
  invSqrt2 := round_unit A _ (by
    have : 1 ≤ Real.sqrt 2 := Real.one_le_sqrt.mpr (by norm_num)
    rw [abs_of_pos (by positivity), div_le_iff₀ (by positivity)]
    linarith)
  piQuarter := round_unit A _ (by
    rw [abs_of_pos (by positivity)]
    linarith [Real.pi_le_four])
  ofRatio q hq := by
    have ht := top_ge A
    obtain ⟨y, y1, y2⟩ := round_some A (q : ℝ) (by linarith)
    refine ⟨y, y1, ?_⟩
    rw [y2]
    have h1 := A.near.err (by have := A.hp; omega) (q : ℝ)
    have h2 : (0 : ℝ) < (2 : ℝ) ^ f.emin := by positivity
    have h3 := mul_nonneg (eps_pos f).le (abs_nonneg (q : ℝ))
    have h4 : (2 : ℝ)⁻¹ ^ f.p = f.eps := rfl
    rw [h4] at h1
    linarith

theorem round_wide (A : binary64.Arith fl) : A.round ((2 ^ 60 + 1 : ℚ) : ℝ) = A.round ((2 ^ 60 : ℚ) : ℝ) := by
  have hp : binary64.p = 53 := rfl
  have hfit : binary64.Fits (2 ^ 60 : ℝ) := ⟨2 ^ 52, 8, by rw [hp]; norm_num, by show (-1074 : ℤ) ≤ 8; norm_num, by norm_num⟩
  have key : fl (2 ^ 60 + 1) = 2 ^ 60 := by
    have h1 := A.near.nearest (2 ^ 60 + 1) _ hfit
    obtain ⟨m, e, m1, m2, m3⟩ := A.near.fits (2 ^ 60 + 1)
    rw [show |(2 : ℝ) ^ 60 - (2 ^ 60 + 1)| = 1 by norm_num, _root_.abs_le] at h1
    have hlow : (2 : ℝ) ^ 60 ≤ fl (2 ^ 60 + 1) := by linarith
    have hupp : fl (2 ^ 60 + 1) ≤ 2 ^ 60 + 2 := by linarith
    have he : 7 < e := by
      by_contra hc
      have b1 : (2 : ℝ) ^ e ≤ 2 ^ (7 : ℤ) := zpow_le_zpow_right₀ (by norm_num) (by omega)
      have b2 : (m : ℝ) ≤ 2 ^ 53 - 1 := by
        have : m ≤ 2 ^ 53 - 1 := by have := (abs_lt.mp m1).2; rw [hp] at this; omega
        exact_mod_cast this
      have b0 : (0 : ℝ) < 2 ^ e := by positivity
      have b3 : (m : ℝ) * 2 ^ e ≤ (2 ^ 53 - 1) * 2 ^ (7 : ℤ) := by
        refine (mul_le_mul_of_nonneg_right b2 b0.le).trans (mul_le_mul_of_nonneg_left b1 (by norm_num))
      rw [← m3] at b3
      have b4 : ((2 : ℝ) ^ 53 - 1) * 2 ^ (7 : ℤ) < 2 ^ 60 := by norm_num
      linarith
    obtain ⟨k, hk⟩ : ∃ k : ℕ, e = 8 + k := ⟨(e - 8).toNat, by omega⟩
    have hx : fl (2 ^ 60 + 1) = ((m * 2 ^ k * 256 : ℤ) : ℝ) := by
      rw [m3, hk, zpow_add₀ (by norm_num), zpow_natCast]
      push_cast
      norm_num
      ring
    rw [hx] at hlow hupp ⊢
    have c1 : (2 ^ 60 : ℤ) ≤ m * 2 ^ k * 256 := by exact_mod_cast hlow
    have c2 : m * 2 ^ k * 256 ≤ 2 ^ 60 + 2 := by exact_mod_cast hupp
    have c3 : m * 2 ^ k * 256 = 2 ^ 60 := by omega
    rw [c3]
    norm_num
  have key2 : fl (2 ^ 60) = 2 ^ 60 := A.near.fix hfit
  have ht : (2 : ℝ) ^ 60 + 1 ≤ binary64.top / 2 := by
    show _ ≤ ((2 : ℝ) ^ 53 - 1) * 2 ^ (971 : ℤ) / 2
    have : (2 : ℝ) ^ (20 : ℤ) ≤ 2 ^ (971 : ℤ) := zpow_le_zpow_right₀ (by norm_num) (by norm_num)
    have h20 : (2 : ℝ) ^ (20 : ℤ) = 1048576 := by norm_num
    rw [h20] at this
    have := mul_le_mul_of_nonneg_left this (by norm_num : (0 : ℝ) ≤ 2 ^ 53 - 1)
    have h3 : (2 : ℝ) ^ 60 + 1 ≤ ((2 : ℝ) ^ 53 - 1) * 1048576 / 2 := by norm_num
    exact h3.trans (div_le_div_of_nonneg_right this (by norm_num))
  obtain ⟨y, y1, y2⟩ := round_some A (2 ^ 60 + 1) (by rw [abs_of_pos (by positivity)]; exact ht)
  obtain ⟨z, z1, z2⟩ := round_some A (2 ^ 60) (by rw [abs_of_pos (by positivity)]; linarith)
  have e1 : (((2 ^ 60 + 1 : ℚ)) : ℝ) = 2 ^ 60 + 1 := by norm_num
  have e2 : (((2 ^ 60 : ℚ)) : ℝ) = 2 ^ 60 := by norm_num
  rw [e1, e2, y1, z1]
  congr 1
  exact Subtype.ext (by rw [y2, z2, key, key2])

/-- C122 (why the bound depends on the size of a rational angle): in `f64`, with all functions rounded to nearest, the ratios `2^60` and `2^60 + 1` give the same op, on
all qubits, but the exact entries of these rotations differ by more than 0.4. -/
theorem C122_wide_angle (A : binary64.Arith fl) :
    (∀ idx, unitaryOpP A (stdRounded A) idx (.Rz (.piRational (2 ^ 60 + 1))) = unitaryOpP A (stdRounded A) idx (.Rz (.piRational (2 ^ 60)))) ∧
    2 / 5 ≤ ‖Complex.exp (((2 ^ 60 + 1) / 2 : ℝ) * Complex.I) - Complex.exp ((2 ^ 60 / 2 : ℝ) * Complex.I)‖ := by
  constructor
  · intro idx
    have e : angleP (stdRounded A) (.piRational (2 ^ 60 + 1)) = angleP (stdRounded A) (.piRational (2 ^ 60)) := round_wide A
    simp only [unitaryOpP, e]
  · rw [show (((2 ^ 60 + 1) / 2 : ℝ) : ℂ) * Complex.I = ((2 ^ 60 / 2 : ℝ) : ℂ) * Complex.I + ((1 / 2 : ℝ) : ℂ) * Complex.I by
      rw [← add_mul, ← Complex.ofReal_add]; congr 2; ring, Complex.exp_add]
    generalize hw : Complex.exp (((2 ^ 60 / 2 : ℝ) : ℂ) * Complex.I) = w
    have hn : ‖w‖ = 1 := by rw [← hw, Complex.norm_exp_ofReal_mul_I]
    rw [show w * Complex.exp (((1 / 2 : ℝ) : ℂ) * Complex.I) - w = w * (Complex.exp (((1 / 2 : ℝ) : ℂ) * Complex.I) - 1) by ring, norm_mul, hn, one_mul]
    refine le_trans ?_ (Complex.abs_im_le_norm _)
    rw [Complex.sub_im, Complex.exp_ofReal_mul_I_im, Complex.one_im, sub_zero]
    have := Real.sin_gt_sub_cube (x := 1 / 2) (by norm_num)
    refine le_trans ?_ (le_abs_self _)
    norm_num at this ⊢
    linarith

/-- instance: H, T, CNOT, a rotation by a floating point number and one by a ratio, a global phase and a stochastic measurement, in `f64` -/
theorem C122_example (A : binary64.Arith fl) (L : StdLib binary64) (hL : L.Accurate binary64.eps) (θ : binary64.Fin) :
    ∃ els, ([([0], .unitary .H), ([0], .unitary .T), ([0, 1], .unitary .CNOT), ([1], .unitary (.Rz (.floating (some θ)))),
      ([0], .unitary (.Rz (.piRational (1 / 3)))), ([0], .unitary (.GlobalPhase (.piRational 5))), ([0, 1], .meas .stochastic)] :
        List (List ℕ × ObjTypeP binary64)).mapM (elemP A L) = .ok els ∧
      List.Forall₂ (ElemAsC A) els [([0], ⟨1, .unitary .H⟩), ([0], ⟨1, .unitary .T⟩), ([0, 1], ⟨2, .unitary .CNOT⟩), ([1], ⟨1, .unitary (.Rz (.floating θ.1))⟩),
        ([0], ⟨1, .unitary (.Rz (.piRational (1 / 3)))⟩), ([0], ⟨1, .unitary (.GlobalPhase (.piRational 5))⟩), ([0, 1], ⟨2, .meas .stochastic⟩)] := by
  refine C122_elements A (by show 4 ≤ 53; norm_num) L hL 2 _ _ ?_ ?_ ?_
  · exact .cons ⟨rfl, .inl rfl⟩ (.cons ⟨rfl, .inl rfl⟩ (.cons ⟨rfl, .inl rfl⟩ (.cons ⟨rfl, .inl rfl⟩ (.cons ⟨rfl, .inl rfl⟩ (.cons ⟨rfl, .inl rfl⟩
      (.cons ⟨rfl, .inl rfl⟩ .nil))))))
  · have g : ∀ (idx : List ℕ) (w : ℕ) (u : UObj), idx.Nodup → (∀ q ∈ idx, q < 2) → u.Shape idx.length → w = idx.length → (∀ ρ, u ≠ .GlobalPhase ρ) →
        (∀ d, u ≠ .MAT d) → AnyElem 2 (idx, ⟨w, .unitary u⟩) := by
      intro idx w u h1 h2 h3 h4 h5 h6
      refine .inl (.inl ⟨⟨⟨h1, h2, ?_⟩, h4, u, rfl, h5⟩, ?_⟩)
      · intro u' hu'
        obtain rfl : u = u' := by injection hu'
        exact h3
      · intro d hd
        exact absurd (by injection hd) (h6 d)
    intro e he
    simp only [List.mem_cons, List.not_mem_nil, or_false] at he
    rcases he with rfl | rfl | rfl | rfl | rfl | rfl | rfl
    · exact g _ _ _ (by simp) (by simp) rfl rfl (by simp) (by simp)
    · exact g _ _ _ (by simp) (by simp) rfl rfl (by simp) (by simp)
    · exact g _ _ _ (by simp) (by simp) rfl rfl (by simp) (by simp)
    · exact g _ _ _ (by simp) (by simp) rfl rfl (by simp) (by simp)
    · exact g _ _ _ (by simp) (by simp) rfl rfl (by simp) (by simp)
    · exact .inr ⟨.inl ⟨_, rfl⟩, by simp, by simp, fun u hu => by
        obtain rfl : UObj.GlobalPhase (.piRational 5) = u := by injection hu
        exact Nat.one_pos⟩
    · exact .inr ⟨.inr rfl, by simp, by simp, by rintro u hu; cases hu⟩
  · intro e he
    simp only [List.mem_cons, List.not_mem_nil, or_false] at he
    rcases he with rfl | rfl | rfl | rfl | rfl | rfl | rfl
    · trivial
    · trivial
    · trivial
    · exact (rfl : (some θ).isSome = true)
    · show |(((1 / 3 : ℚ)) : ℝ)| ≤ 1
      norm_num
    · trivial
    · trivial

/-- the entries of H, on the second of two qubits if the first is one -/
noncomputable def chData : List ℂ := [1, 0, 0, 0, 0, 1, 0, 0, 0, 0, ((1 / Real.sqrt 2 : ℝ) : ℂ), ((1 / Real.sqrt 2 : ℝ) : ℂ),
  0, 0, ((1 / Real.sqrt 2 : ℝ) : ℂ), -((1 / Real.sqrt 2 : ℝ) : ℂ)]

theorem chData_unitary : IsUnitary 2 fun i j => (chData[i * 2 ^ 2 + j]?).getD 0 := by
  have hc : ((1 / Real.sqrt 2 : ℝ) : ℂ) * ((1 / Real.sqrt 2 : ℝ) : ℂ) = 1 / 2 := by
    rw [← Complex.ofReal_mul, div_mul_div_comm, Real.mul_self_sqrt (by norm_num)]
    norm_num
  have hs : star ((1 / Real.sqrt 2 : ℝ) : ℂ) = ((1 / Real.sqrt 2 : ℝ) : ℂ) := Complex.conj_ofReal _
  unfold chData
  generalize ((1 / Real.sqrt 2 : ℝ) : ℂ) = c at hc hs
  intro r q hr hq
  have hr : r < 4 := hr
  have hq : q < 4 := hq
  interval_cases r <;> interval_cases q <;> simp [sum_range_succ] <;> first | done | (rw [show (starRingEnd ℂ) c = c from hs, hc]; norm_num)

/-- instance: a circuit with a user matrix, given by the rounded entries of the controlled H, between H and a stochastic measurement, in `f64` -/
theorem C122_matrix (A : binary64.Arith fl) (L : StdLib binary64) (hL : L.Accurate binary64.eps) (rnds : ℕ → binary64.Fin) :
    ∃ els i v ms, ([([0], .unitary .H), ([0, 1], .unitary (.MAT (chData.map (store A)))), ([0, 1], .meas .stochastic)] :
        List (List ℕ × ObjTypeP binary64)).mapM (elemP A L) = .ok els ∧ initialIndex 2 [] = some i ∧
      LocalBuilder.calculateStateWithInit ⟨[([0], ⟨1, .unitary .H⟩), ([0, 1], ⟨2, .unitary (.MAT chData)⟩), ([0, 1], ⟨2, .meas .stochastic⟩)], 2, [], 1⟩ []
        (fun k => (rnds k).1) = some (v, ms) ∧
      ∀ t, RunsC A.prec (fun c : A.Num => c) (fun c => c) 2 (fun k => some (rnds k)) els
        ⟨(List.replicate (2 ^ 2) 0).set i 1, List.replicate (2 ^ 2) 0, []⟩ t →
        List.Forall₂ (SameResult binary64 (1 / 10 ^ 12)) t.measurements ms := by
  have he : binary64.eps = (2 : ℝ)⁻¹ ^ 53 := rfl
  have hn : ‖((1 / Real.sqrt 2 : ℝ) : ℂ)‖ ≤ 3 := by
    rw [Complex.norm_real, Real.norm_of_nonneg (by positivity), div_le_iff₀ (by positivity)]
    have : 1 ≤ Real.sqrt 2 := Real.one_le_sqrt.mpr (by norm_num)
    linarith
  have hd : ∀ z ∈ chData, EntryMeant (store A z) z := by
    intro z hz
    have h3 : ‖z‖ ≤ 3 := by
      simp only [chData, List.mem_cons, List.not_mem_nil, or_false] at hz
      rcases hz with rfl | rfl | rfl | rfl | rfl | rfl | rfl | rfl | rfl | rfl | rfl | rfl | rfl | rfl | rfl | rfl <;> first | exact hn | (rw [norm_neg]; exact hn) | simp
    obtain ⟨⟨s1, s2⟩, s3, s4⟩ := store_storedAs A z h3
    refine ⟨s1, s2, s3, fun h0 => ?_⟩
    have s5 : A.val (store A z) = 0 := by
      rw [s4 h0]; exact (A.limits (by show 4 ≤ 53; norm_num)).val_zero
    exact ⟨congrArg Complex.re s5, congrArg Complex.im s5⟩
  have hF : List.Forall₂ (EntryMeant (f := binary64)) (chData.map fun z => ((A.round z.re, A.round z.im) : binary64.Part × binary64.Part)) chData := by
    rw [List.forall₂_map_left_iff]
    exact List.forall₂_same.mpr hd
  have hcost : circuitCost [([0], ⟨1, .unitary .H⟩), ([0, 1], ⟨2, .unitary (.MAT chData)⟩), ([0, 1], ⟨2, .meas .stochastic⟩)] = 320 := rfl
  obtain ⟨els, i, v, ms, k1, k2, k3, -, k4⟩ := C122_stochastic A (C88_formats 2).2.2.1.1 (C88_formats 2).2.2.1.2 L hL
    ⟨[([0], ⟨1, .unitary .H⟩), ([0, 1], ⟨2, .unitary (.MAT chData)⟩), ([0, 1], ⟨2, .meas .stochastic⟩)], 2, [], 1⟩ ((C88_formats 2).1 (by norm_num)) [] (by simp)
    (by
      intro e he
      simp only [List.mem_cons, List.not_mem_nil, or_false] at he
      rcases he with rfl | rfl | rfl
      · exact ⟨.inl (.inl ⟨by simp [SegOK, EntryOK, UObj.Shape], by simp⟩), by simp⟩
      · refine ⟨.inl (.inl ⟨by simp [SegOK, EntryOK, UObj.Shape, chData], ?_⟩), by simp⟩
        intro data hdata
        obtain rfl : chData = data := by
          injection hdata with h
          injection h
        exact chData_unitary
      · exact ⟨.inr ⟨.inr rfl, by simp, by simp, by rintro u hu; cases hu⟩, by simp⟩)
    [([0], .unitary .H), ([0, 1], .unitary (.MAT (chData.map (store A)))), ([0, 1], .meas .stochastic)]
    (.cons ⟨rfl, .inl rfl⟩ (.cons ⟨rfl, .inr (.inl ⟨_, _, rfl, rfl, hF⟩)⟩ (.cons ⟨rfl, .inl rfl⟩ .nil)))
    (by
      intro e he
      simp only [List.mem_cons, List.not_mem_nil, or_false] at he
      rcases he with rfl | rfl | rfl
      · trivial
      · intro a ha
        obtain ⟨z, hz, rfl⟩ := List.mem_map.mp ha
        exact ⟨(hd z hz).1, (hd z hz).2.1⟩
      · trivial) rnds (by
      show ((circuitCost _ : ℕ) : ℝ) * binary64.eps ≤ 1
      rw [hcost, he]; norm_num)
  refine ⟨els, i, v, ms, k1, k2, k3, fun t ht => ?_⟩
  refine (k4 t ht).1.imp fun a b hab => ?_
  have hk : ((320 : ℕ) : ℝ) * binary64.eps * (2 + ((320 : ℕ) : ℝ) * binary64.eps) + 24 * (2 ^ 2 * binary64.eps) ≤ 1 / 10 ^ 12 := by
    rw [he]; norm_num
  cases hab with
  | single m y P y0 y1 => exact .single m y P y0 (y1.trans hk)
  | stochastic ps Ps h => exact .stochastic ps Ps (near_mono hk h)

/-- ... and the functions of the standard library in it exist -/
example : ∃ (fl : ℝ → ℝ) (A : binary64.Arith fl) (L : StdLib binary64), L.Accurate binary64.eps := by
  obtain ⟨fl, ⟨A⟩⟩ := exists_binary64
  exact ⟨fl, A, stdRounded A, C122_accurate A⟩

end Verif.Props
