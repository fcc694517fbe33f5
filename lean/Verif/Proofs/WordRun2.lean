import Verif.Proofs.WordRun
import Verif.Spec.Sized

/-! ## Machine words against unbounded numbers: whole calculations -/

namespace Verif
open Classical

theorem mapM_none_mem {α β : Type} (f : α → Option β) (l : List α) (a : α) (ha : a ∈ l) (h : f a = none) : l.mapM f = none := by
  induction l with
  | nil => cases ha
  | cons b l ih =>
    rw [List.mapM_cons]
    rcases List.mem_cons.mp ha with rfl | ha
    · rw [h]; rfl
    · rw [ih ha]
      cases f b <;> rfl

theorem makeMatrixOp64_small (checked : Bool) {idx : List ℕ} (h : idx.length ≤ 31) (dat : List ℂ) : makeMatrixOp64 checked idx dat = makeMatrixOp idx dat := by
  unfold makeMatrixOp64 makeMatrixOp
  have p : (2 : ℕ) ^ (2 * idx.length) < 2 ^ 64 := Nat.pow_lt_pow_right (by norm_num) (by omega)
  rw [shlOne64_fits checked (by omega)]
  simp only
  rw [toNat_ofNat64 p, Nat.one_shiftLeft]

theorem makeMatrixOp64_wide (checked : Bool) {idx : List ℕ} (h1 : 32 ≤ idx.length) (h2 : idx.length < 64) (dat : List ℂ) :
    (∃ e, makeMatrixOp64 checked idx dat = .error e) ∨ makeMatrixOp64 checked idx dat = .ok (.matrix idx dat) ∧ dat.length < 2 ^ idx.length := by
  unfold makeMatrixOp64 shlOne64
  rw [if_neg (by omega)]
  cases checked with
  | true => exact Or.inl ⟨_, rfl⟩
  | false =>
    simp only [Bool.false_eq_true, if_false]
    split_ifs with ha hb
    · exact Or.inl ⟨_, rfl⟩
    · exact Or.inl ⟨_, rfl⟩
    · refine Or.inr ⟨rfl, ?_⟩
      have e1 : 2 * idx.length % 64 = 2 * idx.length - 64 := by omega
      have e2 := shlOne64_fits false (k := 2 * idx.length % 64) (by omega)
      unfold shlOne64 at e2
      rw [if_pos (by omega)] at e2
      rw [not_not, Option.some.inj e2, toNat_ofNat64 (Nat.pow_lt_pow_right (by norm_num) (by omega))] at hb
      rw [hb]
      exact Nat.pow_lt_pow_right (by norm_num) (by omega)

/-- the first row of a matrix with too few entries cannot be read -/
theorem MatIter64.new_short (checked : Bool) {k : ℕ} (hk : k < 64) {dat : List ℂ} (hd : dat.length < 2 ^ k) : MatIter64.new checked (BitVec.ofNat 64 0) k dat = none := by
  unfold MatIter64.new
  have p : (2 : ℕ) ^ k < 2 ^ 64 := Nat.pow_lt_pow_right (by norm_num) hk
  rw [show (0#64) = BitVec.ofNat 64 0 from rfl, getFlatIndex64_fits checked hk (by omega), shlOne64_fits checked hk]
  simp only [Option.bind_eq_bind, Option.bind_some]
  rw [getFlatIndex64_fits checked hk (by omega)]
  simp only [Option.bind_some]
  have g : getFlatIndex k 0 (2 ^ k) = 2 ^ k := by simp [getFlatIndex]
  rw [g, toNat_ofNat64 p]
  unfold slice
  rw [if_neg (by omega)]
  rfl

theorem apply64_short (checked : Bool) {n : ℕ} (hn : n ≤ 63) (idx : List ℕ) (hd : idx.Nodup) (h : ∀ i ∈ idx, i < n) {dat : List ℂ} (hs : dat.length < 2 ^ idx.length)
    (input output : List ℂ) (ho : output.length = 2 ^ n) : applyOpOverwrite64 checked n (.matrix idx dat) input output = none := by
  have hl := length_le_of_nodup hd h
  have hi : matIndices (MatrixOp.matrix idx dat) = some idx := by
    have := matIndices_eq (K := ℂ) (.sparse idx (List.replicate (2 ^ idx.length) [])) ⟨by simp, by simp⟩
    exact this
  unfold applyOpOverwrite64
  rw [hi]
  simp only [Option.bind_eq_bind, Option.bind_some]
  have p0 : 0 < 2 ^ n := by positivity
  refine mapM_none_mem _ _ (output[0]'(by omega), 0) (by rw [List.mk_mem_zipIdx_iff_getElem?]; simp [ho]) ?_
  unfold applyOpRowIndices64
  simp only
  rw [show (0#64) = BitVec.ofNat 64 0 from rfl, add64_fits checked (by norm_num)]
  simp only [Option.bind_eq_bind, Option.bind_some]
  rw [fullToSub64_eq checked n _ _ (by omega) (by omega) (by norm_num) h, fullToSub_eq n _ _ h]
  simp only [Option.map_some, Option.bind_some]
  have e : foldSet (f2sPairs n idx (0 + 0)) 0 = 0 := by
    apply Nat.eq_of_testBit_eq
    intro i
    have := testBit_f2s n idx 0 i
    unfold f2s at this
    rw [show (0 + 0 : ℕ) = 0 from rfl, this]
    simp
  rw [e]
  simp only [items64, MatIter64.new_short checked (by omega) hs]
  rfl

theorem apply64_short_control (checked : Bool) {n : ℕ} (hn : n ≤ 63) (c : ℕ) (idx : List ℕ) (hd : (c :: idx).Nodup) (h : ∀ i ∈ c :: idx, i < n) {dat : List ℂ}
    (hs : dat.length < 2 ^ idx.length) (input output : List ℂ) (ho : output.length = 2 ^ n) :
    applyOpOverwrite64 checked n (.control 1 (c :: idx) (.matrix idx dat)) input output = none := by
  have hl := length_le_of_nodup hd h
  rw [List.length_cons] at hl
  have hc := h c (by simp)
  have hi : matIndices (MatrixOp.control 1 (c :: idx) (.matrix idx dat)) = some (c :: idx) := by
    have := matIndices_eq (K := ℂ) (.sparse (c :: idx) (List.replicate (2 ^ (c :: idx).length) [])) ⟨by simp, by simp⟩
    exact this
  unfold applyOpOverwrite64
  rw [hi]
  simp only [Option.bind_eq_bind, Option.bind_some]
  have p0 : 2 ^ (n - 1 - c) < 2 ^ n := Nat.pow_lt_pow_right (by norm_num) (by omega)
  have p1 : (2 : ℕ) ^ n < 2 ^ 64 := Nat.pow_lt_pow_right (by norm_num) (by omega)
  refine mapM_none_mem _ _ (output[2 ^ (n - 1 - c)]'(by omega), 2 ^ (n - 1 - c)) (by rw [List.mk_mem_zipIdx_iff_getElem?]; simp [ho, p0]) ?_
  unfold applyOpRowIndices64
  simp only
  rw [show (0#64) = BitVec.ofNat 64 0 from rfl, add64_fits checked (by omega)]
  simp only [Option.bind_eq_bind, Option.bind_some]
  rw [fullToSub64_eq checked n _ _ (by omega) (by simp; omega) (by omega) h, fullToSub_eq n _ _ h]
  simp only [Option.map_some, Option.bind_some]
  have e : foldSet (f2sPairs n (c :: idx) (0 + 2 ^ (n - 1 - c))) 0 = 2 ^ idx.length := by
    apply Nat.eq_of_testBit_eq
    intro i
    have := testBit_f2s n (c :: idx) (2 ^ (n - 1 - c)) i
    unfold f2s at this
    rw [Nat.zero_add, this, Nat.testBit_two_pow]
    split_ifs with hi
    · rw [List.length_cons] at hi
      rw [Nat.testBit_two_pow]
      by_cases hil : i = idx.length
      · subst hil
        simp
      · have hj : (c :: idx).length - 1 - i = (idx.length - 1 - i) + 1 := by rw [List.length_cons]; omega
        have hk : idx.length - 1 - i < idx.length := by omega
        have hne : idx[idx.length - 1 - i] ≠ c := fun he => (List.nodup_cons.mp hd).1 (he ▸ List.getElem_mem hk)
        have hlt := h idx[idx.length - 1 - i] (by simp)
        have : (c :: idx)[(c :: idx).length - 1 - i]'(by rw [List.length_cons]; omega) = idx[idx.length - 1 - i] := by
          simp only [hj, List.getElem_cons_succ]
        rw [this]
        have g1 : ¬ n - 1 - c = n - 1 - idx[idx.length - 1 - i] := by omega
        have g2 : ¬ idx.length = i := fun e => hil e.symm
        simp [g1, g2]
    · rw [List.length_cons] at hi
      have : ¬ idx.length = i := by omega
      simp [this]
  rw [e]
  have p2 : (2 : ℕ) ^ (1 + idx.length) = 2 ^ idx.length + 2 ^ idx.length := by rw [pow_add]; omega
  have p3 : (2 : ℕ) ^ (1 + idx.length) ≤ 2 ^ n := Nat.pow_le_pow_right (by norm_num) (by omega)
  have p4 : (0 : ℕ) < 2 ^ idx.length := by positivity
  simp only [items64, List.length_cons]
  rw [if_pos (by omega)]
  simp only [controlItems64, Nat.add_sub_cancel]
  unfold CtrlIter64.new
  simp only
  rw [shlOne64_fits checked (by omega), shlOne64_fits checked (by omega)]
  simp only [Option.bind_eq_bind, Option.bind_some]
  rw [sub64_fits checked (by omega) (by omega)]
  simp only [Option.bind_some]
  rw [toNat_ofNat64 (by omega), toNat_ofNat64 (by omega), if_pos (by omega), sub64_fits checked (by omega) (by omega),
    show 2 ^ idx.length - (2 ^ (1 + idx.length) - 2 ^ idx.length) = 0 by omega, Option.bind_some, MatIter64.new_short checked (by omega) hs]
  rfl

/-- what a step does with the op -/
noncomputable def runOp (f : MatrixOp ℂ → Option (List ℂ)) : Except Fail (MatrixOp ℂ) → Option (List ℂ)
  | .error _ => none
  | .ok op => f op

theorem matrix_step (checked : Bool) {n : ℕ} (hn : n ≤ 63) (idx : List ℕ) (hd : idx.Nodup) (h : ∀ i ∈ idx, i < n) {dat : List ℂ} (hf : dat.length < 2 ^ 63)
    (input output : List ℂ) (ho : output.length = 2 ^ n) :
    runOp (fun op => applyOpOverwrite64 checked n op input output) (makeMatrixOp64 checked idx dat) =
      runOp (fun op => applyOpOverwrite n op input output 0 0) (makeMatrixOp idx dat) := by
  have hl := length_le_of_nodup hd h
  by_cases hs : idx.length ≤ 31
  · rw [makeMatrixOp64_small checked hs]
    unfold makeMatrixOp
    simp only
    split_ifs with h1 h2
    · rfl
    · rfl
    · refine applyOpOverwrite64_eq checked hn (.matrix idx dat) ?_ hf hd h input output (by omega)
      show dat.length = _
      rw [not_not, Nat.one_shiftLeft, two_mul, pow_add] at h2
      exact h2
  · have e1 : ∃ e, makeMatrixOp idx dat = .error e := by
      unfold makeMatrixOp
      simp only
      split_ifs with h1 h2
      · exact ⟨_, rfl⟩
      · exact ⟨_, rfl⟩
      · rw [not_not, Nat.one_shiftLeft] at h2
        have : (2 : ℕ) ^ 64 ≤ 2 ^ (2 * idx.length) := Nat.pow_le_pow_right (by norm_num) (by omega)
        omega
    obtain ⟨e, e1⟩ := e1
    rw [e1]
    rcases makeMatrixOp64_wide checked (idx := idx) (by omega) (by omega) dat with ⟨e', e2⟩ | ⟨e2, e3⟩
    · rw [e2]; rfl
    · rw [e2]; exact apply64_short checked hn idx hd h e3 input output ho

theorem unitary_step (checked : Bool) {n : ℕ} (hn : n ≤ 63) (idx : List ℕ) (hd : idx.Nodup) (h : ∀ i ∈ idx, i < n) {u : UObj} (hf : u.Fits)
    (input output : List ℂ) (ho : output.length = 2 ^ n) :
    runOp (fun op => applyOpOverwrite64 checked n op input output) (unitaryOp64 checked idx u) =
      runOp (fun op => applyOpOverwrite n op input output 0 0) (unitaryOp idx u) := by
  cases u with
  | X => exact matrix_step checked hn idx hd h (by simp) input output ho
  | Y => exact matrix_step checked hn idx hd h (by simp) input output ho
  | Z => exact matrix_step checked hn idx hd h (by simp) input output ho
  | H => exact matrix_step checked hn idx hd h (by simp) input output ho
  | S => exact matrix_step checked hn idx hd h (by simp) input output ho
  | T => exact matrix_step checked hn idx hd h (by simp) input output ho
  | Rz r => exact matrix_step checked hn idx hd h (by simp) input output ho
  | GlobalPhase ρ => rfl
  | MAT data => exact matrix_step checked hn idx hd h hf input output ho
  | SWAP =>
    unfold unitaryOp64 unitaryOp
    simp only
    split_ifs with h1
    · rfl
    · unfold makeSwapOp
      split_ifs with h2 h3
      · rfl
      · rfl
      · rw [List.take_append_drop]
        refine applyOpOverwrite64_eq checked hn (.swap (idx.take (idx.length / 2)).length idx) ?_ trivial hd h input output (by omega)
        show idx.length = _ * 2
        rw [List.length_take]
        omega
  | CNOT =>
    cases idx with
    | nil => rfl
    | cons c rest =>
      have hl := length_le_of_nodup hd h
      rw [List.length_cons] at hl
      unfold unitaryOp64 unitaryOp
      simp only
      by_cases hs : rest.length ≤ 31
      · rw [makeMatrixOp64_small checked hs]
        unfold makeMatrixOp
        simp only
        split_ifs with h1 h2
        · rfl
        · rfl
        · refine applyOpOverwrite64_eq checked hn (.control 1 (c :: rest) (.matrix rest [0, 1, 1, 0])) ⟨?_, ?_, ?_⟩ ?_ hd h input output (by omega)
          · simp
          · rw [not_not, Nat.one_shiftLeft, two_mul, pow_add] at h2
            exact h2
          · simp [MatrixOp.indices]
          · show ([0, 1, 1, 0] : List ℂ).length < _
            simp
      · have e1 : ∃ e, makeMatrixOp rest ([0, 1, 1, 0] : List ℂ) = .error e := by
          unfold makeMatrixOp
          simp only
          split_ifs with h1 h2
          · exact ⟨_, rfl⟩
          · exact ⟨_, rfl⟩
          · rw [not_not, Nat.one_shiftLeft] at h2
            have : (2 : ℕ) ^ 64 ≤ 2 ^ (2 * rest.length) := Nat.pow_le_pow_right (by norm_num) (by omega)
            simp only [List.length_cons, List.length_nil] at h2
            omega
        obtain ⟨e, e1⟩ := e1
        rw [e1]
        rcases makeMatrixOp64_wide checked (idx := rest) (by omega) (by omega) ([0, 1, 1, 0] : List ℂ) with ⟨e', e2⟩ | ⟨e2, e3⟩
        · rw [e2]; rfl
        · rw [e2]; exact apply64_short_control checked hn c rest hd h e3 input output ho

theorem calcStep64_eq (checked : Bool) {n : ℕ} (hn : n ≤ 63) (rnds : ℕ → ℝ) (s : CalcState) (e : List ℕ × CObj) (he : Sized n e) (h1 : s.state.length = 2 ^ n)
    (h2 : s.arena.length = 2 ^ n) : calcStep64 checked n rnds s e = calcStep n rnds s e := by
  obtain ⟨hd, hq, hf⟩ := he
  unfold calcStep64 calcStep
  cases ho : e.2.object with
  | unitary u =>
    have key := unitary_step checked hn e.1 hd hq (hf u ho) s.state s.arena h2
    have k1 : ∀ (r : Except Fail (MatrixOp ℂ)), (match r with
        | .error _ => none
        | .ok uop => do
          let arena ← applyOpOverwrite64 checked n uop s.state s.arena
          some ({ state := arena, arena := s.state, measurements := s.measurements } : CalcState)) =
        (runOp (fun op => applyOpOverwrite64 checked n op s.state s.arena) r).map fun arena => { state := arena, arena := s.state, measurements := s.measurements } := by
      intro r
      cases r with
      | error => rfl
      | ok op => simp only [runOp]; cases applyOpOverwrite64 checked n op s.state s.arena <;> rfl
    have k2 : ∀ (r : Except Fail (MatrixOp ℂ)), (match r with
        | .error _ => none
        | .ok uop => do
          let arena ← applyOpOverwrite n uop s.state s.arena 0 0
          some ({ state := arena, arena := s.state, measurements := s.measurements } : CalcState)) =
        (runOp (fun op => applyOpOverwrite n op s.state s.arena 0 0) r).map fun arena => { state := arena, arena := s.state, measurements := s.measurements } := by
      intro r
      cases r with
      | error => rfl
      | ok op => simp only [runOp]; cases applyOpOverwrite n op s.state s.arena 0 0 <;> rfl
    have k3 := (k1 (unitaryOp64 checked e.1 u)).trans ((congrArg _ key).trans (k2 (unitaryOp e.1 u)).symm)
    cases u <;> first | rfl | exact k3
  | meas t =>
    cases t with
    | measurement =>
      simp only
      rw [← measure64_eq checked hn e.1 hd hq s.state s.arena (by omega)]
      cases measure64 checked n e.1 s.state s.arena (rnds s.measurements.length) <;> rfl
    | stochastic =>
      simp only
      rw [measureProbs64_eq checked hn e.1 hd hq]

theorem calcFold64_eq (checked : Bool) {n : ℕ} (hn : n ≤ 63) (rnds : ℕ → ℝ) (p : Pipeline) (hp : ∀ e ∈ p, Sized n e) : ∀ s : CalcState, s.state.length = 2 ^ n →
    s.arena.length = 2 ^ n → p.foldlM (calcStep64 checked n rnds) s = calcFold n rnds p s := by
  unfold calcFold
  induction p with
  | nil => exact fun _ _ _ => rfl
  | cons e p ih =>
    intro s h1 h2
    have he := hp e (by simp)
    rw [List.foldlM_cons, List.foldlM_cons, calcStep64_eq checked hn rnds s e he h1 h2]
    by_cases hm : Misfit e
    · rw [calcStep_misfit n rnds s e hm]
      rfl
    · obtain ⟨s', e1, e2, e3⟩ := calcStep_fits n rnds s e hm he.2.1 h1 h2
      rw [e1]
      exact ih (fun e he => hp e (by simp [he])) s' e2 e3

end Verif
