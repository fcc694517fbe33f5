import Verif.Spec.FloatExact
import Verif.Proofs.IeeeCircuit
import Verif.Proofs.IeeeMeasure

/-! # Calculations without rounding -/

namespace Verif
open MatrixOp Finset

/-- a part of such a number -/
def Trit (x : ℝ) : Prop := x = 0 ∨ x = 1 ∨ x = -1

theorem Trit.mul {x y : ℝ} (hx : Trit x) (hy : Trit y) : Trit (x * y) := by
  rcases hx with rfl | rfl | rfl <;> rcases hy with rfl | rfl | rfl <;> simp [Trit]

theorem Trit.abs {x : ℝ} (hx : Trit x) : |x| ≤ 1 := by
  rcases hx with rfl | rfl | rfl <;> simp

theorem Quarter.re {z : ℂ} (h : Quarter z) : Trit z.re := by
  rcases h with rfl | rfl | rfl | rfl | rfl <;> simp [Trit]

theorem Quarter.im {z : ℂ} (h : Quarter z) : Trit z.im := by
  rcases h with rfl | rfl | rfl | rfl | rfl <;> simp [Trit]

theorem Quarter.mul {z w : ℂ} (h : Quarter z) (h' : Quarter w) : Quarter (z * w) := by
  rcases h with rfl | rfl | rfl | rfl | rfl <;> rcases h' with rfl | rfl | rfl | rfl | rfl <;> simp [Quarter]

theorem Quarter.normSq {z : ℂ} (h : Quarter z) : Complex.normSq z = if z = 0 then 0 else 1 := by
  rcases h with rfl | rfl | rfl | rfl | rfl <;> simp

section
variable {K : Type}

/-- the op with other entries -/
def mapOp (g : ℂ → K) : MatrixOp ℂ → MatrixOp K
  | .matrix idx d => .matrix idx (d.map g)
  | .sparse idx rows => .sparse idx (rows.map fun r => r.map fun e => (e.1, g e.2))
  | .swap a idx => .swap a idx
  | .control nc idx op => .control nc idx (mapOp g op)

theorem mapOp_indices (g : ℂ → K) (U : MatrixOp ℂ) : (mapOp g U).indices = U.indices := by
  cases U <;> rfl

theorem mapOp_wf (g : ℂ → K) (U : MatrixOp ℂ) (h : U.WF) : (mapOp g U).WF := by
  induction U with
  | matrix idx d => simpa [mapOp, MatrixOp.WF] using h
  | sparse idx rows =>
    obtain ⟨h1, h2⟩ := h
    refine ⟨by simpa [mapOp] using h1, ?_⟩
    intro r hr e he
    obtain ⟨r', hr', rfl⟩ := List.mem_map.mp hr
    obtain ⟨e', he', rfl⟩ := List.mem_map.mp he
    exact h2 r' hr' e' he'
  | swap a idx => exact h
  | control nc idx op ih =>
    obtain ⟨h1, h2, h3⟩ := h
    exact ⟨h1, ih h2, by rw [mapOp_indices]; exact h3⟩

variable [Zero K] [One K] [DecidableEq K]

/-- all entries are among those that `g` stores faithfully -/
def Entries (p : ℂ → Prop) : MatrixOp ℂ → Prop
  | .matrix _ d => ∀ z ∈ d, p z
  | .sparse _ rows => ∀ r ∈ rows, ∀ e ∈ r, p e.2
  | .swap _ _ => True
  | .control _ _ op => Entries p op

omit [One K] in
theorem nzItems_mapOp (g : ℂ → K) (p : ℂ → Prop) (hg : ∀ z, p z → (g z = 0 ↔ z = 0)) (d : List ℂ) (hd : ∀ z ∈ d, p z) (k : ℕ) :
    nzItems (d.map g) k = (nzItems d k).map fun e => (e.1, g e.2) := by
  induction d generalizing k with
  | nil => rfl
  | cons z d ih =>
    have := hg z (hd z (by simp))
    rw [List.map_cons, nzItems_cons, nzItems_cons, ih (fun z hz => hd z (by simp [hz]))]
    by_cases hz : z = 0
    · rw [if_neg (not_not.mpr (this.mpr hz)), if_neg (not_not.mpr hz)]
    · rw [if_pos (fun h => hz (this.mp h)), if_pos hz, List.map_cons]

theorem rowItems_mapOp (g : ℂ → K) (p : ℂ → Prop) (hg : ∀ z, p z → (g z = 0 ↔ z = 0)) (h1 : g 1 = 1) (U : MatrixOp ℂ) (hU : Entries p U) (r : ℕ) :
    rowItems (mapOp g U) r = (rowItems U r).map fun e => (e.1, g e.2) := by
  induction U generalizing r with
  | matrix idx d =>
    show nzItems (denseRow (d.map g) idx.length r) 0 = (nzItems (denseRow d idx.length r) 0).map _
    rw [← nzItems_mapOp g p hg]
    · simp [denseRow, List.map_take, List.map_drop]
    · intro z hz
      exact hU z (List.mem_of_mem_drop (List.mem_of_mem_take hz))
  | sparse idx rows =>
    simp only [mapOp, rowItems, List.getElem?_map]
    cases rows[r]? <;> rfl
  | swap a idx => simp [mapOp, rowItems, h1]
  | control nc idx op ih =>
    simp only [mapOp, rowItems]
    split
    · rw [ih hU, List.map_map, List.map_map]; rfl
    · simp [h1]

end

variable {f : Format} {fl : ℝ → ℝ}

namespace Format.Arith

theorem fits_trit (A : f.Arith fl) {x : ℝ} (h : Trit x) : f.Fits x := by
  rcases h with rfl | rfl | rfl
  · exact fits_zero f
  · exact fits_one A
  · exact (fits_one A).neg

theorem round_trit (A : f.Arith fl) {x : ℝ} (h : Trit x) : A.round x = some ⟨x, fits_trit A h, A.le_top h.abs⟩ :=
  round_fix A x (fits_trit A h) (A.le_top h.abs)

theorem round_inj (A : f.Arith fl) {x y : ℝ} (h : Trit x) (h' : Trit y) : A.round x = A.round y ↔ x = y := by
  constructor
  · intro e
    rw [round_trit A h, round_trit A h'] at e
    injection e with e
    exact congrArg Subtype.val e
  · rintro rfl; rfl

theorem trit_zero : Trit 0 := .inl rfl
theorem trit_one : Trit 1 := .inr (.inl rfl)

theorem stored_zero (A : f.Arith fl) : A.stored 0 = 0 := rfl
theorem stored_one (A : f.Arith fl) : A.stored 1 = 1 := rfl

theorem stored_eq_zero (A : f.Arith fl) {z : ℂ} (h : Quarter z) : A.stored z = 0 ↔ z = 0 := by
  constructor
  · intro e
    have e1 : A.round z.re = A.round 0 := congrArg Prod.fst e
    have e2 : A.round z.im = A.round 0 := congrArg Prod.snd e
    rw [round_inj A h.re trit_zero] at e1
    rw [round_inj A h.im trit_zero] at e2
    exact Complex.ext e1 e2
  · rintro rfl; rfl

theorem stored_mul (A : f.Arith fl) {z w : ℂ} (h : Quarter z) (h' : Quarter w) : A.stored z * A.stored w = A.stored (z * w) := by
  show (A.sub (A.mul (A.round z.re) (A.round w.re)) (A.mul (A.round z.im) (A.round w.im)),
    A.add (A.mul (A.round z.re) (A.round w.im)) (A.mul (A.round z.im) (A.round w.re))) = (A.round (z * w).re, A.round (z * w).im)
  have t1 := h.re.mul h'.re
  have t2 := h.im.mul h'.im
  have t3 := h.re.mul h'.im
  have t4 := h.im.mul h'.re
  rw [mul_part A _ _ (fits_trit A h.re) (fits_trit A h'.re) h.re.abs h'.re.abs, mul_part A _ _ (fits_trit A h.im) (fits_trit A h'.im) h.im.abs h'.im.abs,
    mul_part A _ _ (fits_trit A h.re) (fits_trit A h'.im) h.re.abs h'.im.abs, mul_part A _ _ (fits_trit A h.im) (fits_trit A h'.re) h.im.abs h'.re.abs,
    sub_part A _ _ (fits_trit A t1) (fits_trit A t2) t1.abs t2.abs, add_part A _ _ (fits_trit A t3) (fits_trit A t4) t3.abs t4.abs]
  rfl

theorem zero_add_stored (A : f.Arith fl) {z : ℂ} (h : Quarter z) : 0 + A.stored z = A.stored z := by
  show (A.add (A.round 0) (A.round z.re), A.add (A.round 0) (A.round z.im)) = (A.round z.re, A.round z.im)
  rw [add_part A _ _ (fits_zero f) (fits_trit A h.re) trit_zero.abs h.re.abs, add_part A _ _ (fits_zero f) (fits_trit A h.im) trit_zero.abs h.im.abs,
    zero_add, zero_add]

theorem negP_round (A : f.Arith fl) {x : ℝ} (h : Trit x) : negP (A.round x) = A.round (-x) := by
  have h' : Trit (-x) := by rcases h with rfl | rfl | rfl <;> simp [Trit]
  rw [round_trit A h, round_trit A h']
  rfl

theorem negC_stored (A : f.Arith fl) {z : ℂ} (h : Quarter z) : A.negC (A.stored z) = A.stored (-z) := by
  show (negP (A.round z.re), negP (A.round z.im)) = (A.round (-z).re, A.round (-z).im)
  rw [negP_round A h.re, negP_round A h.im]
  rfl

theorem iC_stored (A : f.Arith fl) : A.iC = A.stored Complex.I := by
  show (A.round 0, A.round 1) = (A.round Complex.I.re, A.round Complex.I.im)
  rw [Complex.I_re, Complex.I_im]

/-- a gate of which every row has one entry moves such numbers without rounding -/
theorem apply_stored (A : f.Arith fl) (n : ℕ) (U : MatrixOp ℂ) (hwf : U.WF) (hidx : ∀ i ∈ U.indices, i < n) (hE : Entries Quarter U)
    (h1 : ∀ r, r < 2 ^ U.indices.length → ∃ c e, rowItems U r = [(c, e)] ∧ Quarter e) (w : List ℂ) (hw : w.length = 2 ^ n) (hq : ∀ z ∈ w, Quarter z)
    (arena : List A.Num) (ha : arena.length = 2 ^ n) (arena' : List ℂ) (ha' : arena'.length = 2 ^ n) :
    ∃ out, applyOpOverwrite n U w arena' 0 0 = some out ∧ applyOpOverwrite n (mapOp A.stored U) (w.map A.stored) arena 0 0 = some (out.map A.stored) ∧
      ∀ z ∈ out, Quarter z := by
  have hw' : (w.map A.stored).length = 2 ^ n := by simpa using hw
  have key : ∀ r, ∃ z, rowTotal n U w r = z ∧ rowTotal n (mapOp A.stored U) (w.map A.stored) r = A.stored z ∧ Quarter z := by
    intro r
    obtain ⟨c, e, k1, k2⟩ := h1 (f2s n U.indices r) (f2s_lt _ _ _)
    have hx : Quarter ((w[s2f n U.indices c r]?).getD 0) := by
      cases hc : w[s2f n U.indices c r]? with
      | none => exact .inl rfl
      | some z => exact hq z (List.mem_of_getElem? hc)
    refine ⟨e * (w[s2f n U.indices c r]?).getD 0, ?_, ?_, k2.mul hx⟩
    · rw [rowTotal, k1]
      simp [total]
    · rw [rowTotal, mapOp_indices, rowItems_mapOp A.stored Quarter (fun z hz => stored_eq_zero A hz) (stored_one A) U hE, k1]
      have e2 : ((w.map A.stored)[s2f n U.indices c r]?).getD 0 = A.stored ((w[s2f n U.indices c r]?).getD 0) := by
        rw [List.getElem?_map]
        cases w[s2f n U.indices c r]? <;> rfl
      show 0 + A.stored e * ((w.map A.stored)[s2f n U.indices c r]?).getD 0 = _
      rw [e2, stored_mul A k2 hx, zero_add_stored A (k2.mul hx)]
  refine ⟨_, applyOpOverwrite_any n U hwf hidx w arena' hw ha', ?_, ?_⟩
  · rw [applyOpOverwrite_any n _ (mapOp_wf _ U hwf) (by rw [mapOp_indices]; exact hidx) _ arena hw' ha, List.map_map]
    congr 1
    apply List.map_congr_left
    intro r _
    obtain ⟨z, k1, k2, -⟩ := key r
    rw [k2, Function.comp_apply, k1]
  · intro z hz
    obtain ⟨r, -, rfl⟩ := List.mem_map.mp hz
    obtain ⟨z, k1, -, k3⟩ := key r
    rw [k1]; exact k3

theorem makeMatrixOp_map {K : Type} (g : ℂ → K) (idx : List ℕ) (d : List ℂ) (U : MatrixOp ℂ) (h : makeMatrixOp idx d = .ok U) :
    makeMatrixOp idx (d.map g) = .ok (mapOp g U) := by
  unfold makeMatrixOp at h ⊢
  simp only [List.length_map] at h ⊢
  split at h
  · cases h
  · split at h
    · cases h
    · rename_i h1 h2
      rw [if_neg h1, if_neg h2]
      cases h
      rfl

/-- rows of the matrix of a one-qubit gate that has one entry in each row -/
theorem one_row (q : ℕ) (a b c d : ℂ) (h : (a ≠ 0 ∧ b = 0 ∧ c = 0 ∧ d ≠ 0) ∨ (a = 0 ∧ b ≠ 0 ∧ c ≠ 0 ∧ d = 0)) (hq : ∀ z ∈ [a, b, c, d], Quarter z) (r : ℕ) (hr : r < 2) :
    ∃ k e, rowItems (.matrix [q] [a, b, c, d]) r = [(k, e)] ∧ Quarter e := by
  simp only [List.mem_cons, List.not_mem_nil, or_false, forall_eq_or_imp, forall_eq] at hq
  obtain ⟨qa, qb, qc, qd⟩ := hq
  have hr : r = 0 ∨ r = 1 := by omega
  rcases h with ⟨h1, rfl, rfl, h2⟩ | ⟨rfl, h1, h2, rfl⟩
  · rcases hr with rfl | rfl
    · exact ⟨0, a, by simp [rowItems, denseRow, nzItems_cons, h1]; rfl, qa⟩
    · exact ⟨1, d, by simp [rowItems, denseRow, nzItems_cons, h2]; rfl, qd⟩
  · rcases hr with rfl | rfl
    · exact ⟨1, b, by simp [rowItems, denseRow, nzItems_cons, h1]; rfl, qb⟩
    · exact ⟨0, c, by simp [rowItems, denseRow, nzItems_cons, h2]; rfl, qc⟩

theorem makeMatrix_one {d : List ℂ} (hd : d.length = 4) (idx : List ℕ) (U : MatrixOp ℂ) (h : makeMatrixOp idx d = .ok U) : ∃ q, idx = [q] ∧ U = .matrix [q] d := by
  unfold makeMatrixOp at h
  simp only [hd, Nat.one_shiftLeft] at h
  split at h
  · cases h
  · split at h
    · cases h
    · rename_i h1 h2
      cases h
      have h3 : 2 ^ (2 * idx.length) = 2 ^ 2 := by
        by_contra hc
        exact h2 fun e => hc e.symm
      have h4 : 2 * idx.length = 2 := Nat.pow_right_injective le_rfl h3
      obtain ⟨q, rfl⟩ := List.length_eq_one_iff.mp (show idx.length = 1 by omega)
      exact ⟨q, rfl, rfl⟩

/-- what is the same about such gates in both arithmetics -/
structure PlainOp (A : f.Arith fl) (L : StdLib f) (idx : List ℕ) (g : UObjP f) (U : MatrixOp ℂ) : Prop where
  op : unitaryOpP A L idx g = .ok (mapOp A.stored U)
  entries : Entries Quarter U
  rows : ∀ r, r < 2 ^ U.indices.length → ∃ c e, rowItems U r = [(c, e)] ∧ Quarter e

theorem plain_matrix (A : f.Arith fl) (L : StdLib f) (idx : List ℕ) (g : UObjP f) (a b c d : ℂ) (U : MatrixOp ℂ) (h : makeMatrixOp idx [a, b, c, d] = .ok U)
    (hg : unitaryOpP A L idx g = makeMatrixOp idx [A.stored a, A.stored b, A.stored c, A.stored d])
    (hm : (a ≠ 0 ∧ b = 0 ∧ c = 0 ∧ d ≠ 0) ∨ (a = 0 ∧ b ≠ 0 ∧ c ≠ 0 ∧ d = 0)) (hq : ∀ z ∈ [a, b, c, d], Quarter z) : PlainOp A L idx g U := by
  have h1 := makeMatrixOp_map A.stored idx _ U h
  obtain ⟨q, rfl, rfl⟩ := makeMatrix_one rfl idx U h
  exact ⟨by rw [hg]; exact h1, hq, fun r hr => one_row q a b c d hm hq r (by simpa [indices] using hr)⟩

theorem quarter_cases {a b c d : ℂ} (ha : Quarter a) (hb : Quarter b) (hc : Quarter c) (hd : Quarter d) : ∀ z ∈ [a, b, c, d], Quarter z := by
  intro z hz
  simp only [List.mem_cons, List.not_mem_nil, or_false] at hz
  rcases hz with rfl | rfl | rfl | rfl <;> assumption

theorem quarter_zero : Quarter 0 := .inl rfl
theorem quarter_one : Quarter 1 := .inr (.inl rfl)
theorem quarter_neg : Quarter (-1) := .inr (.inr (.inl rfl))
theorem quarter_i : Quarter Complex.I := .inr (.inr (.inr (.inl rfl)))
theorem quarter_negI : Quarter (-Complex.I) := .inr (.inr (.inr (.inr rfl)))

theorem plain_op (A : f.Arith fl) (L : StdLib f) (idx : List ℕ) (c : UObjP f) (g : UObj) (hc : (ObjTypeP.unitary c).exact = .unitary g) (hg : g.plain = true) (U : MatrixOp ℂ)
    (h : unitaryOp idx g = .ok U) : PlainOp A L idx c U := by
  cases c with
  | X =>
    obtain rfl : UObj.X = g := by injection hc
    exact plain_matrix A L idx _ 0 1 1 0 U h rfl (by simp) (quarter_cases quarter_zero quarter_one quarter_one quarter_zero)
  | Y =>
    obtain rfl : UObj.Y = g := by injection hc
    exact plain_matrix A L idx _ 0 (-Complex.I) Complex.I 0 U h (by rw [← negC_stored A quarter_i, ← iC_stored]; rfl) (by simp)
      (quarter_cases quarter_zero quarter_negI quarter_i quarter_zero)
  | Z =>
    obtain rfl : UObj.Z = g := by injection hc
    exact plain_matrix A L idx _ 1 0 0 (-1) U h (by rw [← negC_stored A quarter_one]; rfl) (by simp)
      (quarter_cases quarter_one quarter_zero quarter_zero quarter_neg)
  | S =>
    obtain rfl : UObj.S = g := by injection hc
    exact plain_matrix A L idx _ 1 0 0 Complex.I U h (by rw [← iC_stored]; rfl) (by simp)
      (quarter_cases quarter_one quarter_zero quarter_zero quarter_i)
  | CNOT =>
    obtain rfl : UObj.CNOT = g := by injection hc
    cases idx with
    | nil => cases h
    | cons c rest =>
      have h' : (makeMatrixOp rest [0, 1, 1, 0] >>= fun inner => makeControlOp [c] inner) = .ok U := h
      cases hi : makeMatrixOp rest ([0, 1, 1, 0] : List ℂ) with
      | error e => rw [hi] at h'; cases h'
      | ok inner =>
        rw [hi] at h'
        have h1 := makeMatrixOp_map A.stored rest _ inner hi
        obtain ⟨q, rfl, rfl⟩ := makeMatrix_one rfl rest inner hi
        have h2 : MatrixOp.control 1 [c, q] (.matrix [q] [0, 1, 1, 0]) = U := by injection h'
        subst h2
        have hq := quarter_cases quarter_zero quarter_one quarter_one quarter_zero
        refine ⟨?_, hq, fun r hr => ?_⟩
        · show (makeMatrixOp [q] [0, 1, 1, 0] >>= fun inner => makeControlOp [c] inner) = _
          have h3 : makeMatrixOp [q] ([0, 1, 1, 0] : List A.Num) = .ok (mapOp A.stored (.matrix [q] [0, 1, 1, 0])) := h1
          rw [h3]
          rfl
        · have hr : r < 4 := by simpa [indices] using hr
          have e : rowItems (MatrixOp.control 1 [c, q] (.matrix [q] ([0, 1, 1, 0] : List ℂ))) r =
            if 2 ≤ r then (rowItems (.matrix [q] ([0, 1, 1, 0] : List ℂ)) (r - 2)).map fun e => (e.1 + 2, e.2) else [(r, 1)] := rfl
          rw [e]
          split
          · obtain ⟨k, e, k1, k2⟩ := one_row q 0 1 1 0 (by simp) hq (r - 2) (by omega)
            exact ⟨k + 2, e, by rw [k1]; rfl, k2⟩
          · exact ⟨r, 1, rfl, quarter_one⟩
  | SWAP =>
    obtain rfl : UObj.SWAP = g := by injection hc
    have h' : (if idx.length % 2 ≠ 0 then .error .panic else makeSwapOp (idx.take (idx.length / 2)) (idx.drop (idx.length / 2))) = Except.ok U := h
    have h2 : unitaryOpP A L idx .SWAP =
      (if idx.length % 2 ≠ 0 then .error .panic else makeSwapOp (idx.take (idx.length / 2)) (idx.drop (idx.length / 2))) := rfl
    unfold makeSwapOp at h' h2
    split at h'
    · cases h'
    · split at h'
      · cases h'
      · split at h'
        · cases h'
        · rename_i a1 a2 a3
          rw [if_neg a1, if_neg a2, if_neg a3] at h2
          cases h'
          exact ⟨h2, trivial, fun r hr => ⟨_, 1, rfl, quarter_one⟩⟩
  | _ =>
    exfalso
    injection hc with hc
    subst hc
    cases hg

end Format.Arith
end Verif
