import Verif.Props.Gates
import Verif.Proofs.Calc3
import Verif.Proofs.Inverse

/-!
# Properties C64–C66: gates given by matrices

C64: `apply_vec_matrix` and `apply_matrix` apply the matrix they are given (row major, first qubit of the register
most significant). Data of a wrong size is accepted and makes every later calculation panic.
C65: refuted; `broadcast_single_qubit_matrix` on a register of two or more qubits adds a wrongly sized matrix.
C66: the default gate objects of `CliffordTBuilder` are the gates `LocalBuilder` overrides them with.
-/

namespace Verif.Props
open Complex Classical

/-- the matrix listed row by row in `data`, `2 ^ k` entries per row -/
def rowMajor (k : ℕ) (data : List ℂ) : ℕ → ℕ → ℂ := fun i j => data.getD (i * 2 ^ k + j) 0

/-! ## C64 -/

theorem applyCO_whole (r : Reg) (hr : r ≠ []) (o : ObjType) :
    Emits (LocalBuilder.applyCO r ⟨r.length, o⟩) r [(r, ⟨r.length, o⟩)] := by
  by_cases h : r.length = 1
  · obtain ⟨q, rfl⟩ := List.length_eq_one_iff.mp h
    exact applyCO_one_emits [q] hr (by simp) o
  · exact applyCO_n_emits r _ rfl h

theorem applyVecMatrix_emits (r : Reg) (hr : r ≠ []) (data : List ℂ) :
    Emits (applyVecMatrix r data) r [(r, ⟨r.length, .unitary (.MAT data)⟩)] := applyCO_whole r hr _

theorem applyMatrix_emits (r : Reg) (hr : r ≠ []) (data : List ℂ) :
    Emits (applyMatrix r data) r [(r, ⟨r.length, .unitary (.MAT data)⟩)] := applyCO_whole r hr _

theorem broadcast_emits (r : Reg) (hr : r ≠ []) (data : List ℂ) :
    Emits (broadcastSingleQubitMatrix r data) r [(r, ⟨r.length, .unitary (.MAT data)⟩)] :=
  fun s => unwrapM_ok (applyCO_whole r hr _ s)

/-- the state after one more matrix -/
theorem calculate_mat (b : LocalBuilder) (r : Reg) (hr : r ≠ []) (hn : r.Nodup) (hb : ∀ q ∈ r, q < b.n) (data : List ℂ)
    (hd : data.length = 4 ^ r.length) (it : List (Reg × ℕ)) (h : ∀ p ∈ it, ∀ q ∈ p.1, q < b.n)
    (hp : ∀ e ∈ b.pipeline, SegOK b.n e) (rnds : ℕ → ℝ) :
    ∃ v, ({ b with pipeline := b.pipeline ++ [(r, ⟨r.length, .unitary (.MAT data)⟩)] } : LocalBuilder).calculateStateWithInit
        it rnds = some (v, []) ∧
      Rep b.n v (gateW r (rowMajor r.length data) (runW rotAngle b.pipeline (ket (initAsg it)))) := by
  have hl : 0 < r.length := List.length_pos_iff.mpr hr
  obtain ⟨v, h1, h2⟩ := calculate_unitary
    ({ b with pipeline := b.pipeline ++ [(r, ⟨r.length, .unitary (.MAT data)⟩)] } : LocalBuilder) it h (by
      intro e he
      rcases List.mem_append.mp he with he | he
      · exact hp e he
      · rw [List.mem_singleton] at he
        subst he
        exact ⟨⟨hn, hb, fun u hu => by cases hu; exact ⟨hd, hl⟩⟩, rfl, _, rfl, by simp⟩) rnds
  refine ⟨v, h1, ?_⟩
  rw [runW_append] at h2
  convert h2 using 1
  show _ = gateW r (uMat rotAngle r.length (.MAT data)) _
  congr 2

/-- `apply_vec_matrix` and `apply_matrix` return the register, add one element, and the calculated state is the matrix
applied to the state without it - for every matrix of the right size, unitary or not. -/
theorem C64_apply_matrix (b : LocalBuilder) (r : Reg) (hr : r ≠ []) (hn : r.Nodup) (hb : ∀ q ∈ r, q < b.n) (data : List ℂ)
    (hd : data.length = 4 ^ r.length) (it : List (Reg × ℕ)) (h : ∀ p ∈ it, ∀ q ∈ p.1, q < b.n)
    (hp : ∀ e ∈ b.pipeline, SegOK b.n e) (rnds : ℕ → ℝ) :
    ∃ b' v v', applyVecMatrix r data b = .ok r b' ∧ applyMatrix r data b = .ok r b' ∧ b'.n = b.n ∧
      b.calculateStateWithInit it rnds = some (v, []) ∧ b'.calculateStateWithInit it rnds = some (v', []) ∧
      ∃ ψ, Rep b.n v ψ ∧ Rep b.n v' (gateW r (rowMajor r.length data) ψ) := by
  obtain ⟨v, h1, h2⟩ := calculate_unitary b it h hp rnds
  obtain ⟨v', h3, h4⟩ := calculate_mat b r hr hn hb data hd it h hp rnds
  exact ⟨_, v, v', applyVecMatrix_emits r hr data b, applyMatrix_emits r hr data b, rfl, h1, h3, _, h2, h4⟩

/-- ... and for unitary matrices the calls take part in the reasoning about circuits of the other theorems. -/
theorem C64_does (ang : Rot → ℝ) (s : LocalBuilder) (r : Reg) (L : List ℕ) (hr : r ≠ []) (ho : Own s (r ++ L))
    (data : List ℂ) (hd : data.length = 4 ^ r.length) (hu : IsUnitary r.length (rowMajor r.length data)) :
    Does ang (applyVecMatrix r data) s r (r ++ L) (fun x => gateW r (rowMajor r.length data) (ket x)) ∧
    Does ang (applyMatrix r data) s r (r ++ L) (fun x => gateW r (rowMajor r.length data) (ket x)) := by
  have hn : r.Nodup := (List.nodup_append.mp ho.left).1
  have key : ∀ e ∈ [((r, ⟨r.length, .unitary (.MAT data)⟩) : List ℕ × CObj)], SegU s.n e ∧ ∀ q ∈ e.1, q ∈ r ++ L := by
    intro e he
    rw [List.mem_singleton] at he
    subst he
    refine ⟨⟨⟨⟨hn, fun q hq => ho.mem_lt (by simp [hq]), fun u hu => ?_⟩, rfl, _, rfl, by simp⟩, ?_⟩, fun q hq => by simp [hq]⟩
    · cases hu; exact ⟨hd, List.length_pos_iff.mpr hr⟩
    · intro d hd; cases hd
      convert hu using 3
      simp [rowMajor]
  have e : ∀ x, runW ang [((r, ⟨r.length, .unitary (.MAT data)⟩) : List ℕ × CObj)] (ket x) =
      gateW r (rowMajor r.length data) (ket x) := by
    intro x
    show gateW r (uMat ang r.length (.MAT data)) _ = _
    congr 2
  exact ⟨((applyVecMatrix_emits r hr data).does ang ho key).congrU fun x _ => e x,
    ((applyMatrix_emits r hr data).does ang ho key).congrU fun x _ => e x⟩

/-- a calculation that meets a matrix of a wrong size panics -/
theorem calculate_wrong_size (b : LocalBuilder) (r : Reg) (data : List ℂ) (hd : data.length ≠ 4 ^ r.length) (rest : Pipeline)
    (it : List (Reg × ℕ)) (h : ∀ p ∈ it, ∀ q ∈ p.1, q < b.n) (rnds : ℕ → ℝ) :
    ({ b with pipeline := b.pipeline ++ (r, ⟨r.length, .unitary (.MAT data)⟩) :: rest } : LocalBuilder).calculateStateWithInit
      it rnds = none := by
  obtain ⟨i, -, -, -, h4⟩ := calculate_eq
    ({ b with pipeline := b.pipeline ++ (r, ⟨r.length, .unitary (.MAT data)⟩) :: rest } : LocalBuilder) it h rnds
  rw [h4]
  have bad : ∃ e, makeMatrixOp r data = .error e := by
    unfold makeMatrixOp
    have e : 1 <<< (2 * r.length) = 4 ^ r.length := by rw [Nat.one_shiftLeft, pow_mul]; norm_num
    simp only []
    split_ifs with h1 h2
    · exact ⟨_, rfl⟩
    · exact ⟨_, rfl⟩
    · exact absurd (by rw [e] at h2; simpa using h2) hd
  obtain ⟨e, he⟩ := bad
  have step : ∀ st, calcStep b.n rnds st (r, ⟨r.length, .unitary (.MAT data)⟩) = none := by
    intro st
    unfold calcStep unitaryOp
    simp only [he]
  simp only [calcFold_append, calcFold_cons]
  cases calcFold b.n rnds b.pipeline (calcInit b.n i) <;> simp [step]

/-- Data of a wrong size is accepted by `apply_vec_matrix` and `apply_matrix`, but then the state cannot be calculated
any more, whatever is added to the circuit afterwards. -/
theorem C64_wrong_size (b : LocalBuilder) (r : Reg) (hr : r ≠ []) (data : List ℂ) (hd : data.length ≠ 4 ^ r.length) :
    ∃ b', applyVecMatrix r data b = .ok r b' ∧ applyMatrix r data b = .ok r b' ∧
      ∀ (rest : Pipeline) (it : List (Reg × ℕ)), (∀ p ∈ it, ∀ q ∈ p.1, q < b.n) → ∀ rnds,
        ({ b' with pipeline := b'.pipeline ++ rest } : LocalBuilder).calculateStateWithInit it rnds = none := by
  refine ⟨_, applyVecMatrix_emits r hr data b, applyMatrix_emits r hr data b, fun rest it h rnds => ?_⟩
  have := calculate_wrong_size b r data hd rest it h rnds
  simpa using this

/-- a swap with a phase, on qubits 2 and 0 -/
def swapPhase : List ℂ := [1, 0, 0, 0, 0, 0, I, 0, 0, 1, 0, 0, 0, 0, 0, 1]

example (ang : Rot → ℝ) : Does ang (applyVecMatrix [2, 0] swapPhase) fiveQubits [2, 0] ([2, 0] ++ [1, 3])
    (fun x => gateW [2, 0] (rowMajor 2 swapPhase) (ket x)) := by
  refine (C64_does ang fiveQubits [2, 0] [1, 3] (by simp) ⟨by simp [fiveQubits], by decide, by decide⟩ swapPhase rfl ?_).1
  intro r c hr hc
  simp only [List.length_cons, List.length_nil] at hr hc ⊢
  norm_num at hr hc ⊢
  simp only [Finset.sum_range_succ, Finset.sum_range_zero, rowMajor, swapPhase]
  interval_cases r <;> interval_cases c <;> simp

/-- a projection, not unitary: three qubits, the second in the state 1 -/
example : ∃ b' v v', applyVecMatrix [1] [1, 0, 0, 0] (⟨[], 3, [], 0⟩ : LocalBuilder) = .ok [1] b' ∧
    applyMatrix [1] [1, 0, 0, 0] (⟨[], 3, [], 0⟩ : LocalBuilder) = .ok [1] b' ∧ b'.n = 3 ∧
    (⟨[], 3, [], 0⟩ : LocalBuilder).calculateStateWithInit [([1], 1)] (fun _ => 0) = some (v, []) ∧
    b'.calculateStateWithInit [([1], 1)] (fun _ => 0) = some (v', []) ∧
      ∃ ψ, Rep 3 v ψ ∧ Rep 3 v' (gateW [1] (rowMajor 1 [1, 0, 0, 0]) ψ) :=
  C64_apply_matrix _ [1] (by simp) (by simp) (by simp) _ rfl [([1], 1)] (by simp) (by simp) _

example : ∃ b', applyVecMatrix [1, 0] [1, 0, 0, 1] fiveQubits = .ok [1, 0] b' :=
  (C64_wrong_size fiveQubits [1, 0] (by simp) [1, 0, 0, 1] (by simp)).imp fun _ h => h.1

/-! ## C65 -/

/-- C65 as stated: the unitary matrix is applied to each qubit of the register. -/
def C65_claim : Prop :=
  ∀ (ang : Rot → ℝ) (s : LocalBuilder) (r : Reg) (L : List ℕ), r ≠ [] → Own s (r ++ L) → ∀ data : List ℂ, data.length = 4 →
    IsUnitary 1 (rowMajor 1 data) →
    Does ang (broadcastSingleQubitMatrix r data) s r (r ++ L) (fun x => eachW (rowMajor 1 data) r (ket x))

/-- It holds for registers of one qubit. -/
theorem C65_one_qubit_partial (ang : Rot → ℝ) (s : LocalBuilder) (q : ℕ) (L : List ℕ) (ho : Own s ([q] ++ L)) (data : List ℂ)
    (hd : data.length = 4) (hu : IsUnitary 1 (rowMajor 1 data)) :
    Does ang (broadcastSingleQubitMatrix [q] data) s [q] ([q] ++ L) (fun x => eachW (rowMajor 1 data) [q] (ket x)) := by
  obtain ⟨s', h, h'⟩ := (C64_does ang s [q] L (by simp) ho data hd hu).1
  refine ⟨s', ?_, h'⟩
  exact unwrapM_ok h

/-- For every register of two or more qubits the call succeeds, but no state can be calculated afterwards. -/
theorem C65_never (b : LocalBuilder) (r : Reg) (hr : 2 ≤ r.length) (data : List ℂ) (hd : data.length = 4) :
    ∃ b', broadcastSingleQubitMatrix r data b = .ok r b' ∧
      ∀ (rest : Pipeline) (it : List (Reg × ℕ)), (∀ p ∈ it, ∀ q ∈ p.1, q < b.n) → ∀ rnds,
        ({ b' with pipeline := b'.pipeline ++ rest } : LocalBuilder).calculateStateWithInit it rnds = none := by
  have hne : r ≠ [] := by rintro rfl; simp at hr
  refine ⟨_, broadcast_emits r hne data b, fun rest it h rnds => ?_⟩
  have hd' : data.length ≠ 4 ^ r.length := by
    rw [hd]
    have : 4 ^ 2 ≤ 4 ^ r.length := Nat.pow_le_pow_right (by norm_num) hr
    omega
  have := calculate_wrong_size b r data hd' rest it h rnds
  simpa using this

/-- C65 is false: the Pauli X matrix on a register of two qubits. -/
theorem C65_refuted : ¬ C65_claim := by
  intro h
  have hu : IsUnitary 1 (rowMajor 1 [0, 1, 1, 0]) := by
    intro r c hr hc
    norm_num at hr hc ⊢
    simp only [Finset.sum_range_succ, Finset.sum_range_zero, rowMajor]
    interval_cases r <;> interval_cases c <;> simp
  obtain ⟨s', h1, -, -, h2⟩ := h (fun _ => 0) ⟨[], 2, [], 0⟩ [0, 1] [] (by simp) ⟨by simp, by decide, by decide⟩
    [0, 1, 1, 0] rfl hu
  obtain ⟨b', g1, g2⟩ := C65_never ⟨[], 2, [], 0⟩ [0, 1] (by simp) [0, 1, 1, 0] rfl
  have e : b' = s' := by
    have := g1.symm.trans h1
    injection this
  subst e
  obtain ⟨-, -, seg, e1, e2, -⟩ := h2
  have hc := g2 [] [] (by simp) (fun _ => 0)
  have hs : ∀ e ∈ ({ b' with pipeline := b'.pipeline ++ [] } : LocalBuilder).pipeline, SegOK b'.n e := by
    intro e he
    change b'.pipeline = [] ++ seg at e1
    simp only [List.append_nil] at he
    rw [e1] at he
    exact (e2 e he).1
  obtain ⟨v, m1, -⟩ := calculate_unitary { b' with pipeline := b'.pipeline ++ [] } [] (by simp) hs (fun _ => 0)
  rw [m1] at hc
  exact absurd hc (by simp)

example (ang : Rot → ℝ) : Does ang (broadcastSingleQubitMatrix [2] [0, -I, I, 0]) fiveQubits [2] ([2] ++ [0, 1, 3])
    (fun x => eachW (rowMajor 1 [0, -I, I, 0]) [2] (ket x)) := by
  refine C65_one_qubit_partial ang fiveQubits 2 [0, 1, 3] ⟨by simp [fiveQubits], by decide, by decide⟩ _ rfl ?_
  intro r c hr hc
  norm_num at hr hc ⊢
  simp only [Finset.sum_range_succ, Finset.sum_range_zero, rowMajor]
  interval_cases r <;> interval_cases c <;> simp

example : ∃ b', broadcastSingleQubitMatrix [3, 1, 2] [0, 1, 1, 0] fiveQubits = .ok [3, 1, 2] b' :=
  (C65_never fiveQubits [3, 1, 2] (by simp) [0, 1, 1, 0] rfl).imp fun _ h => h.1

/-! ## C66 -/

/-- the default `make_…` method of a gate and the one `LocalBuilder` has -/
noncomputable def defaults : List ((LocalBuilder → CObj) × (LocalBuilder → CObj)) :=
  [(defaultMakeX, CliffordT.makeX), (defaultMakeY, CliffordT.makeY), (defaultMakeZ, CliffordT.makeZ),
    (defaultMakeH, CliffordT.makeH), (defaultMakeS, CliffordT.makeS), (defaultMakeT, CliffordT.makeT),
    (defaultMakeCnot, CliffordT.makeCnot)]

theorem default_mat (ang : Rot → ℝ) (b : LocalBuilder) : ∀ p ∈ defaults, ∃ k d u, p.1 b = ⟨k, .unitary (.MAT d)⟩ ∧
    p.2 b = ⟨k, .unitary u⟩ ∧ d.length = 4 ^ k ∧ 0 < k ∧ u.Shape k ∧ ((∀ ρ, u ≠ .GlobalPhase ρ) ∧ ∀ d, u ≠ .MAT d) ∧
      ∀ i j, i < 2 ^ k → j < 2 ^ k → uMat ang k (.MAT d) i j = uMat ang k u i j := by
  intro p hp
  simp only [defaults, List.mem_cons, List.not_mem_nil, or_false] at hp
  rcases hp with rfl | rfl | rfl | rfl | rfl | rfl | rfl
  · refine ⟨1, _, _, rfl, rfl, rfl, by decide, rfl, by simp, fun i j hi hj => ?_⟩
    interval_cases i <;> interval_cases j <;> simp [uMat, mat2, defaultX]
  · refine ⟨1, _, _, rfl, rfl, rfl, by decide, rfl, by simp, fun i j hi hj => ?_⟩
    interval_cases i <;> interval_cases j <;> simp [uMat, mat2, defaultY]
  · refine ⟨1, _, _, rfl, rfl, rfl, by decide, rfl, by simp, fun i j hi hj => ?_⟩
    interval_cases i <;> interval_cases j <;> simp [uMat, mat2, defaultZ]
  · refine ⟨1, _, _, rfl, rfl, rfl, by decide, rfl, by simp, fun i j hi hj => ?_⟩
    interval_cases i <;> interval_cases j <;> simp [uMat, mat2, defaultH]
  · refine ⟨1, _, _, rfl, rfl, rfl, by decide, rfl, by simp, fun i j hi hj => ?_⟩
    interval_cases i <;> interval_cases j <;> simp [uMat, mat2, defaultS]
  · refine ⟨1, _, _, rfl, rfl, rfl, by decide, rfl, by simp, fun i j hi hj => ?_⟩
    interval_cases i <;> interval_cases j <;> simp [uMat, mat2, defaultT]
  · refine ⟨2, _, _, rfl, rfl, rfl, by decide, rfl, by simp, fun i j hi hj => ?_⟩
    norm_num at hi hj
    interval_cases i <;> interval_cases j <;> simp [uMat, defaultCnot]

theorem rep_unique {n : ℕ} {v w : List ℂ} {ψ : Wave} (hv : Rep n v ψ) (hw : Rep n w ψ) : v = w := by
  refine List.ext_getElem? fun i => ?_
  by_cases hi : i < 2 ^ n
  · rw [hv.2 i hi, hw.2 i hi]
  · rw [List.getElem?_eq_none (by rw [hv.1]; omega), List.getElem?_eq_none (by rw [hw.1]; omega)]

/-- Adding the default object of a gate to any circuit gives the same state as adding `LocalBuilder`'s own object, and
that is the gate with its textbook matrix (`uMat`). -/
theorem C66_defaults (b : LocalBuilder) (p) (hp : p ∈ defaults) (r : Reg) (hr : r.length = (p.1 b).n) (hn : r.Nodup)
    (hb : ∀ q ∈ r, q < b.n) (it : List (Reg × ℕ)) (h : ∀ p ∈ it, ∀ q ∈ p.1, q < b.n) (ho : ∀ e ∈ b.pipeline, SegOK b.n e)
    (rnds : ℕ → ℝ) :
    ∃ b₁ b₂ v u, CircuitBuilder.applyCO r (p.1 b) b = .ok r b₁ ∧ CircuitBuilder.applyCO r (p.2 b) b = .ok r b₂ ∧
      b₁.calculateStateWithInit it rnds = some (v, []) ∧ b₂.calculateStateWithInit it rnds = some (v, []) ∧
      (p.2 b).object = .unitary u ∧
      Rep b.n v (gateW r (uMat rotAngle r.length u) (runW rotAngle b.pipeline (ket (initAsg it)))) := by
  obtain ⟨k, d, u, h1, h2, h3, h4, h5, h6, h7⟩ := default_mat rotAngle b p hp
  rw [h1] at hr
  change r.length = k at hr
  subst hr
  have hr : r ≠ [] := by rintro rfl; simp at h4
  rw [h1, h2]
  obtain ⟨v, a1, a2⟩ := calculate_mat b r hr hn hb d h3 it h ho rnds
  obtain ⟨w, c1, c2⟩ := calculate_unitary
    ({ b with pipeline := b.pipeline ++ [(r, ⟨r.length, .unitary u⟩)] } : LocalBuilder) it h (by
      intro e he
      rcases List.mem_append.mp he with he | he
      · exact ho e he
      · rw [List.mem_singleton] at he
        subst he
        exact ⟨⟨hn, hb, fun u hu => by cases hu; exact h5⟩, rfl, _, rfl, h6.1⟩) rnds
  rw [runW_append] at c2
  change Rep b.n w (gateW r (uMat rotAngle r.length u) _) at c2
  have e : gateW r (rowMajor r.length d) = gateW r (uMat rotAngle r.length u) := by
    refine gateW_congr r _ _ fun i j hi hj => ?_
    rw [← h7 i j hi hj]
    simp [rowMajor, uMat]
  rw [e] at a2
  obtain rfl := rep_unique a2 c2
  exact ⟨_, _, v, u, applyCO_whole r hr _ b, applyCO_whole r hr _ b, a1, c1, rfl, c2⟩

/-- the default method of a named gate that has one -/
noncomputable def defaultOf : Named → Option (LocalBuilder → CObj)
  | .x => some defaultMakeX
  | .y => some defaultMakeY
  | .z => some defaultMakeZ
  | .h => some defaultMakeH
  | .s => some defaultMakeS
  | .t => some defaultMakeT
  | .sDagger => none
  | .tDagger => none

/-- A gate method working with the default object (the `make_?` methods not overridden) applies the textbook matrix to
every qubit of the register. -/
theorem C66_gate (ang : Rot → ℝ) (g : Named) (mk : LocalBuilder → CObj) (hg : defaultOf g = some mk) (s : LocalBuilder)
    (r : Reg) (L : List ℕ) (hr : r ≠ []) (ho : Own s (r ++ L)) :
    Does ang (gate mk r) s r (r ++ L) (fun x => eachW (textbook g) r (ket x)) := by
  have hn : r.Nodup := (List.nodup_append.mp ho.left).1
  have key : ∃ mk', (mk, mk') ∈ defaults ∧ ∃ u, u.Shape 1 ∧ mk' s = ⟨1, .unitary u⟩ ∧ uMat ang 1 u = textbook g := by
    cases g <;> cases hg
    · exact ⟨CliffordT.makeX, by simp [defaults], .X, rfl, rfl, rfl⟩
    · exact ⟨CliffordT.makeY, by simp [defaults], .Y, rfl, rfl, rfl⟩
    · exact ⟨CliffordT.makeZ, by simp [defaults], .Z, rfl, rfl, rfl⟩
    · exact ⟨CliffordT.makeH, by simp [defaults], .H, rfl, rfl, rfl⟩
    · exact ⟨CliffordT.makeS, by simp [defaults], .S, rfl, rfl, rfl⟩
    · exact ⟨CliffordT.makeT, by simp [defaults], .T, rfl, rfl, rfl⟩
  obtain ⟨mk', hm, u, hs, hu, ht⟩ := key
  obtain ⟨k, d, u', h1, h2, h3, h4, h5, h6, h7⟩ := default_mat ang s _ hm
  simp only at h1 h2
  rw [hu] at h2
  obtain ⟨rfl, rfl⟩ : 1 = k ∧ u = u' := by cases h2; exact ⟨rfl, rfl⟩
  have hmk : ∀ t, mk t = ⟨1, .unitary (.MAT d)⟩ := by
    intro t
    rw [← h1]
    cases g <;> cases hg <;> rfl
  refine ((gate_emits (.MAT d) r hr hn mk hmk).does ang ho ?_).congrU fun x _ => ?_
  · intro e he
    obtain ⟨q, hq, rfl⟩ := List.mem_map.mp he
    refine ⟨⟨⟨⟨by simp, ?_, ?_⟩, rfl, _, rfl, by simp⟩, ?_⟩, ?_⟩
    · intro a ha
      rw [List.mem_singleton] at ha
      exact ho.mem_lt (by simp [ha, hq])
    · intro v hv; cases hv; exact ⟨h3, by simp⟩
    · intro d' hd'
      cases hd'
      have := uMat_unitary ang 1 u h5 (fun d hd => absurd hd (h6.2 d))
      intro a c ha hc
      rw [← this a c ha hc]
      refine Finset.sum_congr rfl fun i hi => ?_
      have hi' := Finset.mem_range.mp hi
      rw [← h7 i a hi' ha, ← h7 i c hi' hc]
      rfl
    · intro a ha
      rw [List.mem_singleton] at ha
      simp [ha, hq]
  · rw [each_eachW, ← ht]
    have : ∀ (r : Reg) (ψ : Wave), eachW (uMat ang 1 (.MAT d)) r ψ = eachW (uMat ang 1 u) r ψ := by
      intro r
      induction r with
      | nil => intro ψ; rfl
      | cons q r ih =>
        intro ψ
        show eachW _ r (gateW [q] _ ψ) = eachW _ r (gateW [q] _ ψ)
        rw [ih, gateW_congr [q] (uMat ang 1 (.MAT d)) (uMat ang 1 u) fun i j hi hj => h7 i j hi hj]
    exact this r _

example (ang : Rot → ℝ) : Does ang (gate defaultMakeH [3, 0]) fiveQubits [3, 0] ([3, 0] ++ [1, 2])
    (fun x => eachW (mat2 (1 / Real.sqrt 2) (1 / Real.sqrt 2) (1 / Real.sqrt 2) (-(1 / Real.sqrt 2))) [3, 0] (ket x)) :=
  C66_gate ang .h _ rfl fiveQubits [3, 0] [1, 2] (by simp) ⟨by simp [fiveQubits], by decide, by decide⟩

/-- qubit 2 of three in superposition -/
def plusBuilder : LocalBuilder := ⟨[([2], ⟨1, .unitary .H⟩)], 3, [], 0⟩

/-- the default CNOT on qubits 2 and 0 -/
example : ∃ b₁ b₂ v u, CircuitBuilder.applyCO [2, 0] (defaultMakeCnot plusBuilder) plusBuilder = .ok [2, 0] b₁ ∧
    CircuitBuilder.applyCO [2, 0] (CliffordT.makeCnot plusBuilder) plusBuilder = .ok [2, 0] b₂ ∧
    b₁.calculateStateWithInit [] (fun _ => 0) = some (v, []) ∧ b₂.calculateStateWithInit [] (fun _ => 0) = some (v, []) ∧
    (CliffordT.makeCnot plusBuilder).object = .unitary u ∧
    Rep 3 v (gateW [2, 0] (uMat rotAngle 2 u) (runW rotAngle plusBuilder.pipeline (ket (initAsg [])))) :=
  C66_defaults plusBuilder (defaultMakeCnot, CliffordT.makeCnot) (by simp [defaults]) [2, 0] rfl
    (by decide) (by simp [plusBuilder]) [] (by simp) (by
      intro e he
      rw [plusBuilder, List.mem_singleton] at he
      subst he
      exact ⟨⟨by simp, by simp [plusBuilder], fun u hu => by cases hu; rfl⟩, rfl, _, rfl, by simp⟩) _

end Verif.Props
