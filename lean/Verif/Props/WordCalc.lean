import Verif.Proofs.WordRun2
import Verif.Props.WideCalc
import Verif.Props.Calc

/-!
# Properties C115 to C118: calculations on machine words

The whole of `calculate_state_with_init` with every index a `usize`, in a build with overflow checks or without.
-/

namespace Verif.Props
open Classical

/-- C115: as long as the state vector fits into a `Vec`, nothing overflows in the whole calculation: the result, the panics and the measurements are those of the
calculation with unbounded numbers, in both kinds of build, for every circuit on distinct qubits, also one with gates of a wrong size. -/
theorem C115_words (checked : Bool) (bytes : ℕ) (b : LocalBuilder) (hb : 0 < bytes) (hn : 2 ^ b.n * bytes < 2 ^ 63) (hp : ∀ e ∈ b.pipeline, Sized b.n e)
    (it : List (Reg × BitVec 64)) (h : ∀ p ∈ it, p.1.Nodup ∧ ∀ q ∈ p.1, q < b.n) (rnds : ℕ → ℝ) :
    calculateWords checked bytes b it rnds = b.calculateStateWithInit (it.map fun p => (p.1, p.2.toNat)) rnds := by
  rw [← C114_fits_partial checked bytes b hb hn it h rnds]
  have hn' : b.n < 63 := by
    by_contra hc
    have h1 : 2 ^ 63 ≤ 2 ^ b.n := Nat.pow_le_pow_right (by norm_num) (by omega)
    have h2 : 2 ^ b.n * 1 ≤ 2 ^ b.n * bytes := Nat.mul_le_mul_left _ hb
    omega
  have hl : ∀ s, start64 checked bytes b.n it = some s → s.length = 2 ^ b.n := by
    intro s hs
    unfold start64 shlOne64 zeros64 at hs
    rw [if_pos (by omega)] at hs
    simp only [Option.bind_eq_bind, Option.bind_some] at hs
    rw [shl_one_toNat (by omega), if_pos hn] at hs
    simp only [Option.bind_some] at hs
    cases hi : it.foldlM (fun acc p => initReg64 checked b.n p.1 p.2 acc) 0#64 with
    | none => rw [hi] at hs; cases hs
    | some i =>
      rw [hi] at hs
      simp only [Option.bind_some] at hs
      split_ifs at hs
      rw [← Option.some.inj hs]
      simp
  unfold calculateWords calculate64
  cases hs : start64 checked bytes b.n it with
  | none => rfl
  | some s =>
    simp only [Option.bind_eq_bind, Option.bind_some]
    rw [calcFold64_eq checked (by omega) rnds b.pipeline hp { state := s, arena := List.replicate s.length 0, measurements := [] } (hl s hs) (by simp [hl s hs])]

/-- C115: in particular the two kinds of build agree. -/
theorem C115_builds (bytes : ℕ) (b : LocalBuilder) (hb : 0 < bytes) (hn : 2 ^ b.n * bytes < 2 ^ 63) (hp : ∀ e ∈ b.pipeline, Sized b.n e)
    (it : List (Reg × BitVec 64)) (h : ∀ p ∈ it, p.1.Nodup ∧ ∀ q ∈ p.1, q < b.n) (rnds : ℕ → ℝ) :
    calculateWords true bytes b it rnds = calculateWords false bytes b it rnds := by
  rw [C115_words true bytes b hb hn hp it h, C115_words false bytes b hb hn hp it h]

/-- C115, the arithmetic of the words by numbers: a result that fits is exact in both kinds of build; otherwise a checked build panics and an unchecked one
gives the remainder modulo `2 ^ 64`. -/
theorem C115_arith (checked : Bool) (a b : BitVec 64) :
    (∀ op ∈ [(add64, fun x y : ℤ => x + y), (sub64, fun x y => x - y), (mul64, fun x y => x * y)],
      (0 ≤ op.2 a.toNat b.toNat ∧ op.2 a.toNat b.toNat < 2 ^ 64 → ∃ c, op.1 checked a b = some c ∧ (c.toNat : ℤ) = op.2 a.toNat b.toNat) ∧
      (¬ (0 ≤ op.2 a.toNat b.toNat ∧ op.2 a.toNat b.toNat < 2 ^ 64) →
        op.1 true a b = none ∧ ∃ c, op.1 false a b = some c ∧ (c.toNat : ℤ) = op.2 a.toNat b.toNat % 2 ^ 64)) := by
  have ha := a.isLt
  have hb := b.isLt
  simp only [List.mem_cons, List.not_mem_nil, or_false]
  rintro op (rfl | rfl | rfl)
  · simp only [add64]
    have e : ((a + b).toNat : ℤ) = ((a.toNat : ℤ) + b.toNat) % 2 ^ 64 := by rw [BitVec.toNat_add]; norm_num
    constructor
    · intro h
      rw [if_pos (by omega)]
      exact ⟨_, rfl, by rw [e]; exact Int.emod_eq_of_lt h.1 h.2⟩
    · intro h
      have h' : ¬ a.toNat + b.toNat < 2 ^ 64 := by omega
      rw [if_neg h', if_neg h']
      exact ⟨rfl, _, rfl, e⟩
  · simp only [sub64]
    have e : ((a - b).toNat : ℤ) = ((a.toNat : ℤ) - b.toNat) % 2 ^ 64 := by
      rw [BitVec.toNat_sub]
      omega
    constructor
    · intro h
      rw [if_pos (by omega)]
      exact ⟨_, rfl, by rw [e]; exact Int.emod_eq_of_lt h.1 h.2⟩
    · intro h
      have h' : ¬ b.toNat ≤ a.toNat := by omega
      rw [if_neg h', if_neg h']
      exact ⟨rfl, _, rfl, e⟩
  · simp only [mul64]
    have e : ((a * b).toNat : ℤ) = ((a.toNat : ℤ) * b.toNat) % 2 ^ 64 := by rw [BitVec.toNat_mul]; norm_num
    constructor
    · rintro ⟨h1, h2⟩
      rw [if_pos (by exact_mod_cast h2)]
      exact ⟨_, rfl, by rw [e]; exact Int.emod_eq_of_lt h1 h2⟩
    · intro h
      have h' : ¬ a.toNat * b.toNat < 2 ^ 64 := fun h2 => h ⟨by positivity, by exact_mod_cast h2⟩
      rw [if_neg h', if_neg h']
      exact ⟨rfl, _, rfl, e⟩

/-- instance: an addition that overflows by one -/
example : add64 true (BitVec.allOnes 64) 2#64 = none ∧ add64 false (BitVec.allOnes 64) 2#64 = some 1#64 := by decide

/-! ## wide circuits -/

/-- C116 as one would expect it: a calculation without measurements ends with a panic or returns a state of norm 1, in both kinds of build. -/
def C116_claim : Prop :=
  ∀ (checked : Bool) (b : LocalBuilder) (rnds : ℕ → ℝ) (c : List ℂ × List MeasResult), (∀ e ∈ b.pipeline, EntryOK b.n e ∧ e.2.object = .unitary .X) →
    calculateWords checked 16 b [] rnds = some c → (c.1.map Complex.normSq).sum = 1

/-- C116: with overflow checks, or up to 63 qubits, a circuit whose state does not fit into a `Vec` panics. -/
theorem C116_panics_partial (checked : Bool) (bytes : ℕ) (b : LocalBuilder) (hn : 2 ^ 63 ≤ 2 ^ b.n * bytes) (h : checked = true ∨ b.n < 64) (it : List (Reg × BitVec 64))
    (rnds : ℕ → ℝ) : calculateWords checked bytes b it rnds = none := by
  have es : start64 checked bytes b.n it = none := by
    unfold start64 shlOne64 zeros64
    by_cases h64 : b.n < 64
    · rw [if_pos h64]
      simp only [Option.bind_eq_bind, Option.bind_some]
      rw [shl_one_toNat h64, if_neg (by omega)]
      rfl
    · rw [if_neg h64, if_pos (h.resolve_right h64)]
      rfl
  unfold calculateWords
  rw [es]
  rfl

/-- C116: for a circuit of unitary gates whose state fits, the norm is 1 and the state is the product of the gates applied to the initial one. -/
theorem C116_norm_partial (checked : Bool) (bytes : ℕ) (b : LocalBuilder) (hb : 0 < bytes) (hn : 2 ^ b.n * bytes < 2 ^ 63) (hp : ∀ e ∈ b.pipeline, SegOK b.n e)
    (hm : UnitaryMats b.pipeline) (hf : ∀ e ∈ b.pipeline, ∀ u, e.2.object = .unitary u → u.Fits) (it : List (Reg × BitVec 64)) (h : ∀ p ∈ it, p.1.Nodup ∧ ∀ q ∈ p.1, q < b.n)
    (rnds : ℕ → ℝ) : ∃ v, calculateWords checked bytes b it rnds = some (v, []) ∧
      Rep b.n v (runW rotAngle b.pipeline (ket (initAsg (it.map fun p => (p.1, p.2.toNat))))) ∧ (v.map Complex.normSq).sum = 1 := by
  obtain ⟨v, h1, h2, h3⟩ := C30_calculate_state b (it.map fun p => (p.1, p.2.toNat))
    (fun p hp => by obtain ⟨p0, hp0, rfl⟩ := List.mem_map.mp hp; exact (h p0 hp0).2) hp hm rnds
  refine ⟨v, ?_, h2, ?_⟩
  · rw [C115_words checked bytes b hb hn (fun e he => ⟨(hp e he).1.1, (hp e he).1.2.1, hf e he⟩) it h, h1]
  · rw [← h3]
    rfl

/-- C116: a NOT gate on the first of 64 qubits gives a vector with a single entry, and that is 0. -/
theorem C116_zero (rnds : ℕ → ℝ) : calculateWords false 16 ⟨[([0], ⟨1, .unitary .X⟩)], 64, [], 0⟩ [] rnds = some ([0], []) := by
  have es : start64 false 16 64 [] = some [1] := by
    unfold start64 shlOne64 zeros64
    simp [List.replicate]
  have ei : items64 false (.matrix [0] ([0, 1, 1, 0] : List ℂ)) 1 0#64 = some [(1#64, 1)] := by
    have e0 : MatIter64.new false 0#64 1 ([0, 1, 1, 0] : List ℂ) = some { n := 1, data := [0, 1], lastCol := none } := rfl
    have e1 : MatIter64.next false { n := 1, data := ([0, 1] : List ℂ), lastCol := none } = some (some (1#64, 1), { n := 1, data := [0, 1], lastCol := some 1#64 }) := by
      simp [MatIter64.next, nextPos64, shlOne64, matScan64, List.range']
    have e2 : MatIter64.next false { n := 1, data := ([0, 1] : List ℂ), lastCol := some 1#64 } = some (none, { n := 1, data := [0, 1], lastCol := none }) := by
      simp [MatIter64.next, nextPos64, shlOne64, matScan64, List.range', add64]
    simp only [items64]
    rw [e0]
    simp only [Option.bind_eq_bind, Option.bind_some]
    rw [drain, e1]
    simp only
    rw [drain, e2]
    rfl
  have eo : unitaryOp64 false [0] .X = .ok (.matrix [0] [0, 1, 1, 0]) := by
    unfold unitaryOp64
    rw [makeMatrixOp64_small false (by simp)]
    simp [makeMatrixOp]
  have er : applyOpRowIndices64 false 64 (.matrix [0] ([0, 1, 1, 0] : List ℂ)) [1] 0#64 [0] = some 0 := by
    have h1 : fullToSub64 false 64 [0] 0#64 = some 0#64 := by decide
    have h2 : subToFull64 false 64 [0] 1#64 0#64 = some (BitVec.ofNat 64 (2 ^ 63)) := by decide
    unfold applyOpRowIndices64
    have h0 : add64 false 0#64 0#64 = some 0#64 := by decide
    rw [h0]
    simp only [Option.bind_eq_bind, Option.bind_some]
    rw [h1]
    simp only [Option.bind_some, List.length_cons, List.length_nil, Nat.zero_add]
    rw [ei]
    simp only [Option.bind_some, List.mapM_cons, List.mapM_nil, colValue64, h2]
    simp [MatrixOp.total]
  have ea : applyOpOverwrite64 false 64 (.matrix [0] ([0, 1, 1, 0] : List ℂ)) [1] [0] = some [0] := by
    unfold applyOpOverwrite64
    rw [show matIndices (MatrixOp.matrix [0] ([0, 1, 1, 0] : List ℂ)) = some [0] from rfl]
    simp only [Option.bind_eq_bind, Option.bind_some, List.zipIdx_cons, List.zipIdx_nil, List.mapM_cons, List.mapM_nil]
    rw [er]
    rfl
  unfold calculateWords
  simp only
  rw [es]
  simp only [Option.bind_eq_bind, Option.bind_some, List.foldlM_cons, List.foldlM_nil, List.length_cons, List.length_nil, Nat.zero_add, List.replicate]
  unfold calcStep64
  simp only
  rw [eo]
  simp only
  rw [ea]
  rfl

theorem C116_refuted : ¬ C116_claim := by
  intro h
  have h1 := h false ⟨[([0], ⟨1, .unitary .X⟩)], 64, [], 0⟩ (fun _ => 1 / 2) _ (by simp [EntryOK, UObj.Shape]) (C116_zero _)
  simp at h1

/-! ## the size of a matrix -/

/-- C117 as one would expect it: `make_matrix_op` accepts a vector for `k` qubits only if it has `4 ^ k` entries. -/
def C117_claim : Prop :=
  ∀ (checked : Bool) (idx : List ℕ) (dat : List ℂ) (op : MatrixOp ℂ), makeMatrixOp64 checked idx dat = .ok op → dat.length = 4 ^ idx.length

/-- C117: for up to 31 qubits it accepts exactly those. -/
theorem C117_size_partial (checked : Bool) (idx : List ℕ) (h : 0 < idx.length) (h' : idx.length ≤ 31) (dat : List ℂ) :
    makeMatrixOp64 checked idx dat = if dat.length = 4 ^ idx.length then .ok (.matrix idx dat) else .error .error := by
  rw [makeMatrixOp64_small checked h']
  unfold makeMatrixOp
  simp only
  rw [if_neg (by cases idx <;> simp at h ⊢), Nat.one_shiftLeft, pow_mul]
  norm_num

/-- C117: for 32 or more qubits it panics in a build with overflow checks, -/
theorem C117_panics (idx : List ℕ) (h : 32 ≤ idx.length) (dat : List ℂ) : makeMatrixOp64 true idx dat = .error .panic := by
  unfold makeMatrixOp64 shlOne64
  rw [if_neg (by omega)]
  rfl

/-- C117: and in one without it accepts `4 ^ (k mod 32)` entries. -/
theorem C117_wraps (idx : List ℕ) (h : 32 ≤ idx.length) (dat : List ℂ) :
    makeMatrixOp64 false idx dat = if dat.length = 4 ^ (idx.length % 32) then .ok (.matrix idx dat) else .error .error := by
  unfold makeMatrixOp64 shlOne64
  rw [if_neg (by omega)]
  simp only [Bool.false_eq_true, if_false]
  rw [if_neg (by cases idx <;> simp at h ⊢), shl_one_toNat (Nat.mod_lt _ (by norm_num)), show 2 * idx.length % 64 = 2 * (idx.length % 32) by omega, pow_mul]
  norm_num

theorem C117_refuted : ¬ C117_claim := by
  intro h
  have h1 := h false (List.range 33) [1, 0, 0, 1] (.matrix (List.range 33) [1, 0, 0, 1]) (by rw [C117_wraps _ (by simp)]; simp)
  simp at h1

/-! ## initial values of foreign qubits -/

/-- C118 as one would expect it: an initial value for a register with a qubit that the builder does not have ends with a panic. -/
def C118_claim : Prop :=
  ∀ (checked : Bool) (b : LocalBuilder) (it : List (Reg × BitVec 64)) (rnds : ℕ → ℝ), (∃ p ∈ it, ∃ q ∈ p.1, b.n ≤ q) → calculateWords checked 16 b it rnds = none

theorem foldlM_none_mem {α β : Type} (f : α → β → Option α) (l : List β) (x : β) (hx : x ∈ l) (h : ∀ a, f a x = none) : ∀ a, l.foldlM f a = none := by
  induction l with
  | nil => cases hx
  | cons y l ih =>
    intro a
    rw [List.foldlM_cons]
    rcases List.mem_cons.mp hx with rfl | hx
    · rw [h]; rfl
    · cases f a y with
      | none => rfl
      | some b => exact ih hx b

/-- C118: it does in a build with overflow checks. -/
theorem C118_panics_partial (bytes : ℕ) (b : LocalBuilder) (it : List (Reg × BitVec 64)) (rnds : ℕ → ℝ) (h : ∃ p ∈ it, ∃ q ∈ p.1, b.n ≤ q) :
    calculateWords true bytes b it rnds = none := by
  obtain ⟨p, hp, q, hq, hn⟩ := h
  have e1 : it.foldlM (fun acc p => initReg64 true b.n p.1 p.2 acc) 0#64 = none := by
    refine foldlM_none_mem _ _ p hp (fun a => ?_) _
    obtain ⟨k, hk, hkq⟩ := List.mem_iff_getElem.mp (List.mem_reverse.mpr hq)
    refine foldlM_none_mem _ _ (q, k) (by rw [List.mk_mem_zipIdx_iff_getElem?, List.getElem?_eq_getElem hk, hkq]) (fun a => ?_) _
    simp only [bitPos64]
    rw [if_neg (by omega)]
    rfl
  have es : start64 true bytes b.n it = none := by
    unfold start64
    rw [e1]
    cases shlOne64 true b.n with
    | none => rfl
    | some len =>
      simp only [Option.bind_eq_bind, Option.bind_some]
      cases zeros64 bytes len <;> rfl
  unfold calculateWords
  rw [es]
  rfl

/-- C118: without overflow checks only the numbers of the qubits modulo 64 matter. -/
theorem C118_alias (bytes : ℕ) (b : LocalBuilder) (hn : b.n < 2 ^ 64) (it it' : List (Reg × BitVec 64)) (rnds : ℕ → ℝ) (hx : it.map Prod.snd = it'.map Prod.snd)
    (h : it.map (fun p => p.1.map (· % 64)) = it'.map (fun p => p.1.map (· % 64))) (h1 : ∀ p ∈ it, ∀ q ∈ p.1, q < 2 ^ 64) (h2 : ∀ p ∈ it', ∀ q ∈ p.1, q < 2 ^ 64) :
    calculateWords false bytes b it rnds = calculateWords false bytes b it' rnds := by
  have hshl : ∀ (a : BitVec 64) (k : ℕ), shl64 false a k = some (a <<< (k % 64)) := fun a k => by
    unfold shl64
    by_cases hk : k < 64
    · rw [if_pos hk, Nat.mod_eq_of_lt hk]
    · rw [if_neg hk]
      rfl
  have hpos : ∀ q, q < 2 ^ 64 → ∃ k, bitPos64 false b.n q = some k ∧ k % 64 = (b.n + 63 + (64 - q % 64)) % 64 := fun q hq => by
    unfold bitPos64
    by_cases hk : q < b.n
    · rw [if_pos hk]
      exact ⟨_, rfl, by omega⟩
    · rw [if_neg hk, if_neg (by simp)]
      exact ⟨_, rfl, by omega⟩
  have hstep : ∀ (x acc : BitVec 64) (q k : ℕ), q < 2 ^ 64 → (do
      let index ← bitPos64 false b.n q
      let y ← shr64 false x k
      let v ← shl64 false (y &&& 1#64) index
      some (acc ||| v)) = (do
      let y ← shr64 false x k
      some (acc ||| ((y &&& 1#64) <<< ((b.n + 63 + (64 - q % 64)) % 64)))) := fun x acc q k hq => by
    obtain ⟨m, m1, m2⟩ := hpos q hq
    rw [m1]
    simp only [Option.bind_eq_bind, Option.bind_some, hshl, m2]
  have hreg : ∀ (r r' : Reg) (x acc : BitVec 64), (∀ q ∈ r, q < 2 ^ 64) → (∀ q ∈ r', q < 2 ^ 64) → r.map (· % 64) = r'.map (· % 64) →
      initReg64 false b.n r x acc = initReg64 false b.n r' x acc := by
    have hgen : ∀ (l : ℕ) (r : Reg) (x acc : BitVec 64), (∀ q ∈ r, q < 2 ^ 64) → ∀ o, (r.zipIdx o).foldlM (fun acc (p : ℕ × ℕ) => do
        let index ← bitPos64 false b.n p.1
        let y ← shr64 false x (l - 1 - p.2)
        let v ← shl64 false (y &&& 1#64) index
        some (acc ||| v)) acc = ((r.map (· % 64)).zipIdx o).foldlM (fun acc (p : ℕ × ℕ) => do
        let y ← shr64 false x (l - 1 - p.2)
        some (acc ||| ((y &&& 1#64) <<< ((b.n + 63 + (64 - p.1)) % 64)))) acc := by
      intro l r x acc hr
      induction r generalizing acc with
      | nil => exact fun _ => rfl
      | cons q r ih =>
        intro o
        simp only [List.map_cons, List.zipIdx_cons, List.foldlM_cons]
        rw [hstep x acc q _ (hr q (by simp))]
        cases shr64 false x (l - 1 - o) with
        | none => rfl
        | some y => exact ih _ (fun q hq => hr q (by simp [hq])) _
    intro r r' x acc hr hr' e
    unfold initReg64
    have el : r.length = r'.length := by simpa using congrArg List.length e
    rw [hgen r.length r.reverse x acc (by simpa using hr) 0, hgen r'.length r'.reverse x acc (by simpa using hr') 0, List.map_reverse, List.map_reverse, e, el]
  have hfold : ∀ acc, it.foldlM (fun acc p => initReg64 false b.n p.1 p.2 acc) acc = it'.foldlM (fun acc p => initReg64 false b.n p.1 p.2 acc) acc := by
    induction it generalizing it' with
    | nil =>
      cases it' with
      | nil => exact fun _ => rfl
      | cons => simp at hx
    | cons p it ih =>
      cases it' with
      | nil => simp at hx
      | cons p' it' =>
        intro acc
        simp only [List.map_cons, List.cons.injEq] at hx h
        rw [List.foldlM_cons, List.foldlM_cons, hreg p.1 p'.1 p.2 acc (h1 p (by simp)) (h2 p' (by simp)) h.1, hx.1]
        cases initReg64 false b.n p'.1 p'.2 acc with
        | none => rfl
        | some a => exact ih it' hx.2 h.2 (fun p hp => h1 p (by simp [hp])) (fun p hp => h2 p (by simp [hp])) a
  unfold calculateWords start64
  rw [hfold]

/-- C118: the last qubit of three is set by an initial value for qubit 66 -/
theorem C118_set (rnds : ℕ → ℝ) : calculateWords false 16 ⟨[], 3, [], 0⟩ [([66], 1#64)] rnds = some ((List.replicate 8 0).set 1 1, []) := by
  rw [C118_alias 16 ⟨[], 3, [], 0⟩ (by norm_num) [([66], 1#64)] [([2], 1#64)] rnds rfl rfl (by simp) (by simp),
    C115_words false 16 ⟨[], 3, [], 0⟩ (by norm_num) (by norm_num) (by simp) [([2], 1#64)] (by simp)]
  rfl

theorem C118_refuted : ¬ C118_claim := by
  intro h
  have h1 := h false ⟨[], 3, [], 0⟩ [([66], 1#64)] (fun _ => 1 / 2) ⟨_, List.mem_singleton_self _, 66, by simp, by simp⟩
  rw [C118_set] at h1
  cases h1

/-- C118: in a register of more than 64 qubits the value is repeated: here it is 1, and two of the 70 qubits are set, those with the numbers 69 and 64. -/
theorem C118_twice (rnds : ℕ → ℝ) : calculateWords false 16 ⟨[], 70, [], 0⟩ [(69 :: (List.range 63 ++ [64]), 1#64)] rnds = some ((List.replicate 64 0).set 33 1, []) := by
  have e1 : initReg64 false 70 (69 :: (List.range 63 ++ [64])) 1#64 0#64 = some 33#64 := by decide
  unfold calculateWords start64 shlOne64 zeros64
  simp only [List.foldlM_cons, List.foldlM_nil, e1]
  simp

/-! ## examples -/

example (checked : Bool) (rnds : ℕ → ℝ) :
    calculateWords checked 16 ⟨[([3], ⟨1, .unitary .H⟩), ([3, 57], ⟨2, .unitary .CNOT⟩), ([57], ⟨1, .meas .measurement⟩), ([0, 1], ⟨2, .unitary .X⟩)], 58, [], 0⟩ [([3, 57], 2#64)] rnds =
      LocalBuilder.calculateStateWithInit
        ⟨[([3], ⟨1, .unitary .H⟩), ([3, 57], ⟨2, .unitary .CNOT⟩), ([57], ⟨1, .meas .measurement⟩), ([0, 1], ⟨2, .unitary .X⟩)], 58, [], 0⟩ [([3, 57], 2)] rnds :=
  C115_words checked 16 _ (by norm_num) (by norm_num) (by simp [Sized, UObj.Fits]) [([3, 57], 2#64)] (by simp) rnds

example (rnds : ℕ → ℝ) : calculateWords true 16 ⟨[([0, 2], ⟨2, .unitary (.MAT [1, 0, 0, 1])⟩)], 3, [], 0⟩ [] rnds =
    calculateWords false 16 ⟨[([0, 2], ⟨2, .unitary (.MAT [1, 0, 0, 1])⟩)], 3, [], 0⟩ [] rnds :=
  C115_builds 16 _ (by norm_num) (by norm_num) (by simp [Sized, UObj.Fits]) [] (by simp) rnds

example (rnds : ℕ → ℝ) (p : Pipeline) : calculateWords true 16 ⟨p, 70, [], 0⟩ [] rnds = none := C116_panics_partial true 16 ⟨p, 70, [], 0⟩ (by norm_num) (Or.inl rfl) _ rnds

example (rnds : ℕ → ℝ) (b : LocalBuilder) (h : b.n = 3) : calculateWords true 16 b [([0, 66], 1#64)] rnds = none :=
  C118_panics_partial 16 b _ rnds ⟨_, List.mem_singleton_self _, 66, by simp, by omega⟩

example (rnds : ℕ → ℝ) (b : LocalBuilder) (h : b.n = 3) : calculateWords false 16 b [([0, 66], 3#64)] rnds = calculateWords false 16 b [([64, 2], 3#64)] rnds :=
  C118_alias 16 b (by omega) _ _ rnds rfl rfl (by simp) (by simp)

example (checked : Bool) (rnds : ℕ → ℝ) : ∃ v, calculateWords checked 8 ⟨[([3], ⟨1, .unitary .H⟩), ([3, 58], ⟨2, .unitary .CNOT⟩)], 59, [], 0⟩ [([58], 1#64)] rnds = some (v, []) ∧
    (v.map Complex.normSq).sum = 1 := by
  obtain ⟨v, v1, -, v2⟩ := C116_norm_partial checked 8 ⟨[([3], ⟨1, .unitary .H⟩), ([3, 58], ⟨2, .unitary .CNOT⟩)], 59, [], 0⟩ (by norm_num) (by norm_num)
    (by simp [SegOK, EntryOK, UObj.Shape]) (by simp [UnitaryMats]) (by simp [UObj.Fits]) [([58], 1#64)] (by simp) rnds
  exact ⟨v, v1, v2⟩

example (checked : Bool) : makeMatrixOp64 checked [4, 2] (List.replicate 16 (0 : ℂ)) = .ok (.matrix [4, 2] (List.replicate 16 0)) := by
  rw [C117_size_partial checked [4, 2] (by simp) (by simp), if_pos (by simp)]

example : makeMatrixOp64 true (List.range 32) ([0, 1, 1, 0] : List ℂ) = .error .panic := C117_panics _ (by simp) _

example : makeMatrixOp64 false (List.range 33) ([0, 1, 1, 0] : List ℂ) = .ok (.matrix (List.range 33) [0, 1, 1, 0]) := by
  rw [C117_wraps _ (by simp), if_pos (by simp)]

end Verif.Props
