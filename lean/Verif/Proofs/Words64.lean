import Verif.Model.Words64
import Verif.Proofs.Apply

/-! ## Machine words against unbounded numbers: arithmetic and row iterators -/

namespace Verif

theorem toNat_ofNat64 {x : ℕ} (h : x < 2 ^ 64) : (BitVec.ofNat 64 x).toNat = x := by
  rw [BitVec.toNat_ofNat, Nat.mod_eq_of_lt h]

theorem add64_fits (checked : Bool) {a b : ℕ} (h : a + b < 2 ^ 64) :
    add64 checked (BitVec.ofNat 64 a) (BitVec.ofNat 64 b) = some (BitVec.ofNat 64 (a + b)) := by
  unfold add64
  rw [toNat_ofNat64 (by omega), toNat_ofNat64 (by omega), if_pos h, BitVec.ofNat_add]

theorem sub64_fits (checked : Bool) {a b : ℕ} (h : b ≤ a) (ha : a < 2 ^ 64) :
    sub64 checked (BitVec.ofNat 64 a) (BitVec.ofNat 64 b) = some (BitVec.ofNat 64 (a - b)) := by
  unfold sub64
  rw [toNat_ofNat64 (by omega), toNat_ofNat64 ha, if_pos h]
  congr 1
  apply BitVec.eq_of_toNat_eq
  rw [BitVec.toNat_sub, toNat_ofNat64 (by omega), toNat_ofNat64 ha, toNat_ofNat64 (by omega)]
  omega

theorem mul64_fits (checked : Bool) {a b : ℕ} (ha : a < 2 ^ 64) (hb : b < 2 ^ 64) (h : a * b < 2 ^ 64) :
    mul64 checked (BitVec.ofNat 64 a) (BitVec.ofNat 64 b) = some (BitVec.ofNat 64 (a * b)) := by
  unfold mul64
  rw [toNat_ofNat64 ha, toNat_ofNat64 hb, if_pos h, BitVec.ofNat_mul]

theorem shlOne64_fits (checked : Bool) {k : ℕ} (h : k < 64) : shlOne64 checked k = some (BitVec.ofNat 64 (2 ^ k)) := by
  unfold shlOne64
  rw [if_pos h]
  congr 1
  apply BitVec.eq_of_toNat_eq
  have h1 : (2 : ℕ) ^ k < 2 ^ 64 := Nat.pow_lt_pow_right (by norm_num) h
  rw [BitVec.toNat_shiftLeft, BitVec.toNat_ofNat, Nat.one_mod_two_pow (by omega), Nat.one_shiftLeft, toNat_ofNat64 h1, Nat.mod_eq_of_lt h1]

theorem shr64_fits (checked : Bool) {a k : ℕ} (h : k < 64) (ha : a < 2 ^ 64) : shr64 checked (BitVec.ofNat 64 a) k = some (BitVec.ofNat 64 (a >>> k)) := by
  unfold shr64
  rw [if_pos h]
  congr 1
  apply BitVec.eq_of_toNat_eq
  have h1 : a >>> k ≤ a := Nat.shiftRight_le a k
  rw [BitVec.toNat_ushiftRight, toNat_ofNat64 ha, toNat_ofNat64 (by omega)]

theorem shl64_fits (checked : Bool) {a k : ℕ} (h : k < 64) (ha : a <<< k < 2 ^ 64) : shl64 checked (BitVec.ofNat 64 a) k = some (BitVec.ofNat 64 (a <<< k)) := by
  unfold shl64
  rw [if_pos h]
  congr 1
  apply BitVec.eq_of_toNat_eq
  have h1 : a ≤ a <<< k := by rw [Nat.shiftLeft_eq]; exact Nat.le_mul_of_pos_right _ (by positivity)
  rw [BitVec.toNat_shiftLeft, toNat_ofNat64 (by omega), toNat_ofNat64 ha, Nat.mod_eq_of_lt ha]

theorem bitPos64_fits (checked : Bool) {n i : ℕ} (h : i < n) : bitPos64 checked n i = some (n - 1 - i) := if_pos h

theorem getBit64_eq (checked : Bool) (x : BitVec 64) {i : ℕ} (h : i < 64) : getBit64 checked x i = Word.getBit x i := by
  unfold getBit64 shr64 Word.getBit
  rw [if_pos h, if_pos h]
  rfl

theorem setBit64_eq (checked : Bool) (x : BitVec 64) {i : ℕ} (h : i < 64) (v : Bool) : setBit64 checked x i v = Word.setBit x i v := by
  unfold setBit64 shlOne64 Word.setBit Word.shlOne
  rw [if_pos h, if_pos h]

theorem foldlM_congr_mem {α β : Type} {f g : β → α → Option β} (l : List α) (h : ∀ b, ∀ a ∈ l, f b a = g b a) (b : β) : l.foldlM f b = l.foldlM g b := by
  induction l generalizing b with
  | nil => rfl
  | cons a l ih =>
    rw [List.foldlM_cons, List.foldlM_cons, h b a (by simp)]
    congr 1
    funext b'
    exact ih (fun b a ha => h b a (by simp [ha])) b'

theorem fullToSub64_eq (checked : Bool) (n : ℕ) (idx : List ℕ) (x : ℕ) (hn : n ≤ 64) (hk : idx.length ≤ 64) (hx : x < 2 ^ 64) (h : ∀ i ∈ idx, i < n) :
    fullToSub64 checked n idx (BitVec.ofNat 64 x) = (fullToSub n idx x).map (BitVec.ofNat 64) := by
  rw [← Word.fullToSub_word n idx x hn hk hx h]
  unfold fullToSub64 Word.fullToSub
  refine foldlM_congr_mem _ (fun acc p hp => ?_) _
  have h1 := h _ (List.fst_mem_of_mem_zipIdx hp)
  have h2 : p.2 < idx.length := by have := List.snd_lt_add_of_mem_zipIdx hp; omega
  rw [bitPos64_fits checked h1]
  have e := Word.checkedSub_pos h1
  simp only [Option.bind_eq_bind, Option.bind_some] at e ⊢
  rw [← Option.bind_assoc, e, Option.bind_some, getBit64_eq checked _ (by omega)]
  congr 1
  funext bit
  rw [setBit64_eq checked _ (by omega)]

theorem subToFull64_eq (checked : Bool) (n : ℕ) (idx : List ℕ) (s base : ℕ) (hn : n ≤ 64) (hk : idx.length ≤ 64) (hs : s < 2 ^ 64) (hb : base < 2 ^ 64)
    (h : ∀ i ∈ idx, i < n) :
    subToFull64 checked n idx (BitVec.ofNat 64 s) (BitVec.ofNat 64 base) = (subToFull n idx s base).map (BitVec.ofNat 64) := by
  rw [← Word.subToFull_word n idx s base hn hk hs hb h]
  unfold subToFull64 Word.subToFull
  refine foldlM_congr_mem _ (fun acc p hp => ?_) _
  have h1 := h _ (List.fst_mem_of_mem_zipIdx hp)
  have h2 : p.2 < idx.length := by have := List.snd_lt_add_of_mem_zipIdx hp; omega
  rw [bitPos64_fits checked h1, getBit64_eq checked _ (by omega)]
  have e := Word.checkedSub_pos h1
  simp only [Option.bind_eq_bind, Option.bind_some] at e ⊢
  congr 1
  funext bit
  rw [← Option.bind_assoc, e, Option.bind_some, setBit64_eq checked _ (by omega)]

theorem getFlatIndex64_fits (checked : Bool) {n i j : ℕ} (hn : n < 64) (h : i * 2 ^ n + j < 2 ^ 64) :
    getFlatIndex64 checked n (BitVec.ofNat 64 i) (BitVec.ofNat 64 j) = some (BitVec.ofNat 64 (getFlatIndex n i j)) := by
  unfold getFlatIndex64 getFlatIndex
  have h1 : (2 : ℕ) ^ n < 2 ^ 64 := Nat.pow_lt_pow_right (by norm_num) hn
  have h2 : i ≤ i * 2 ^ n := Nat.le_mul_of_pos_right _ (by positivity)
  rw [shlOne64_fits checked hn]
  simp only [Option.bind_eq_bind, Option.bind_some]
  rw [mul64_fits checked (by omega) h1 (by omega), Option.bind_some, add64_fits checked h, Nat.one_shiftLeft]

/-! ## iterators -/

/-- `next64` on the words does what `next` does on numbers, never panics, and yields columns below `B` -/
def IterSim {K σ σ' : Type} (next : σ → Option (Option (ℕ × K) × σ)) (next64 : σ' → Option (Option (BitVec 64 × K) × σ')) (f : σ → σ') (I : σ → Prop) (B : ℕ) : Prop :=
  ∀ s, I s → ∃ o s', next s = some (o, s') ∧ next64 (f s) = some (o.map wordItem, f s') ∧ I s' ∧ ∀ e, o = some e → e.1 < B

theorem IterSim.drain {K σ σ' : Type} {next : σ → Option (Option (ℕ × K) × σ)} {next64 : σ' → Option (Option (BitVec 64 × K) × σ')} {f : σ → σ'} {I : σ → Prop} {B : ℕ}
    (h : IterSim next next64 f I B) {s : σ} {r : List (ℕ × K) × σ} (hs : I s) (hd : drain next s = some r) :
    drain next64 (f s) = some (r.1.map wordItem, f r.2) ∧ ∀ e ∈ r.1, e.1 < B := by
  revert hs
  refine Verif.drain.partial_correctness next (fun s r => I s → Verif.drain next64 (f s) = some (r.1.map wordItem, f r.2) ∧ ∀ e ∈ r.1, e.1 < B) ?_ s r hd
  intro dr ih s r hr hs
  obtain ⟨o, s', e1, e2, e3, e4⟩ := h s hs
  rw [e1] at hr
  cases o with
  | none =>
    simp only [Option.some.injEq] at hr
    subst hr
    exact ⟨drain_done e2, by simp⟩
  | some a =>
    simp only [Option.bind_eq_bind] at hr
    obtain ⟨t, t1, t2⟩ := Option.bind_eq_some_iff.mp hr
    cases t2
    obtain ⟨i1, i2⟩ := ih s' t t1 e3
    refine ⟨drain_step e2 i1, ?_⟩
    intro e he
    rcases List.mem_cons.mp he with rfl | he
    · exact e4 _ rfl
    · exact i2 e he

section
variable {K : Type}

/-- the words of an iterator over a dense row -/
def MatIter.word (it : MatIter K) : MatIter64 K := { n := it.n, data := it.data, lastCol := it.lastCol.map (BitVec.ofNat 64) }

theorem MatIter64.new_fits (checked : Bool) {row n : ℕ} (data : List K) (hn : n ≤ 31) (hr : row < 2 ^ n) :
    MatIter64.new checked (BitVec.ofNat 64 row) n data = (MatIter.new row n data).map MatIter.word := by
  unfold MatIter64.new MatIter.new
  have h1 : (2 : ℕ) ^ n ≤ 2 ^ 31 := Nat.pow_le_pow_right (by norm_num) hn
  have h2 : row * 2 ^ n ≤ 2 ^ 31 * 2 ^ 31 := Nat.mul_le_mul (by omega) h1
  have h3 : row * 2 ^ n + 2 ^ n < 2 ^ 64 := by omega
  rw [show (0#64) = BitVec.ofNat 64 0 from rfl, getFlatIndex64_fits checked (by omega) (by omega), shlOne64_fits checked (by omega)]
  simp only [Option.bind_eq_bind, Option.bind_some]
  rw [getFlatIndex64_fits checked (by omega) h3]
  simp only [Option.bind_some]
  have g1 : getFlatIndex n row 0 = row * 2 ^ n := by simp [getFlatIndex, Nat.one_shiftLeft]
  have g2 : getFlatIndex n row (1 <<< n) = row * 2 ^ n + 2 ^ n := by simp [getFlatIndex, Nat.one_shiftLeft]
  have g3 : getFlatIndex n row (2 ^ n) = row * 2 ^ n + 2 ^ n := by simp [getFlatIndex, Nat.one_shiftLeft]
  rw [g1, g2, g3, toNat_ofNat64 (by omega), toNat_ofNat64 h3]
  cases slice data (row * 2 ^ n) (row * 2 ^ n + 2 ^ n) <;> rfl

theorem matScan64_eq [Zero K] [DecidableEq K] (data : List K) (cols : List ℕ) : matScan64 data cols = (matScan data cols).map fun o => o.map wordItem := by
  induction cols with
  | nil => rfl
  | cons c cols ih =>
    rw [matScan64, matScan]
    cases data[c]? with
    | none => rfl
    | some v =>
      simp only
      split_ifs
      · rfl
      · exact ih

theorem matScan_mem [Zero K] [DecidableEq K] (data : List K) (cols : List ℕ) (h : ∀ c ∈ cols, c < data.length) :
    ∃ o, matScan data cols = some o ∧ ∀ e, o = some e → e.1 ∈ cols := by
  induction cols with
  | nil => exact ⟨none, rfl, by simp⟩
  | cons c cols ih =>
    rw [matScan, List.getElem?_eq_getElem (h c (by simp))]
    simp only
    split_ifs
    · exact ⟨_, rfl, fun e he => by cases he; simp⟩
    · obtain ⟨o, o1, o2⟩ := ih (fun c hc => h c (by simp [hc]))
      exact ⟨o, o1, fun e he => List.mem_cons_of_mem _ (o2 e he)⟩

theorem mat_sim [Zero K] [DecidableEq K] (checked : Bool) {n : ℕ} (hn : n ≤ 31) :
    IterSim (K := K) MatIter.next (MatIter64.next checked) MatIter.word (fun s => s.n = n ∧ s.data.length = 2 ^ n ∧ ∀ c, s.lastCol = some c → c < 2 ^ n) (2 ^ n) := by
  rintro ⟨n', data, lc⟩ ⟨rfl, h1, h2⟩
  simp only at h1 h2 hn
  have hp : (2 : ℕ) ^ n' ≤ 2 ^ 31 := Nat.pow_le_pow_right (by norm_num) hn
  have hpos : nextPos64 checked (lc.map (BitVec.ofNat 64)) = some (BitVec.ofNat 64 (nextPos lc)) ∧ nextPos lc ≤ 2 ^ n' := by
    cases lc with
    | none => exact ⟨rfl, Nat.zero_le _⟩
    | some c =>
      have := h2 c rfl
      exact ⟨add64_fits checked (a := c) (b := 1) (by omega), this⟩
  obtain ⟨o, o1, o2⟩ := matScan_mem data (List.range' (nextPos lc) (2 ^ n' - nextPos lc)) (fun c hc => by
    rw [h1]; rw [List.mem_range'_1] at hc; omega)
  have o3 : ∀ e, o = some e → e.1 < 2 ^ n' := fun e he => by
    have := o2 e he
    rw [List.mem_range'_1] at this
    omega
  refine ⟨o, { n := n', data := data, lastCol := o.map Prod.fst }, ?_, ?_, ⟨rfl, h1, ?_⟩, o3⟩
  · unfold MatIter.next
    simp only [Nat.one_shiftLeft]
    rw [o1]
    cases o <;> rfl
  · unfold MatIter64.next MatIter.word
    simp only
    rw [hpos.1, shlOne64_fits checked (by omega)]
    simp only [Option.bind_eq_bind, Option.bind_some]
    rw [toNat_ofNat64 (by omega), toNat_ofNat64 (by omega), matScan64_eq, o1]
    cases o <;> rfl
  · intro c hc
    obtain ⟨e, e1, e2⟩ := Option.map_eq_some_iff.mp hc
    exact e2 ▸ o3 e e1

theorem sparse_sim (B : ℕ) : IterSim (K := K) SparseIter.next sparseNext64 id (fun s => ∀ e ∈ s.data, e.1 < B) B := by
  intro s hs
  unfold sparseNext64 SparseIter.next
  simp only [id]
  split_ifs with h
  · exact ⟨none, _, rfl, rfl, hs, by simp⟩
  · rw [List.getElem?_eq_getElem (by omega)]
    exact ⟨some _, _, rfl, rfl, hs, fun e he => by cases he; exact hs _ (List.getElem_mem _)⟩

/-- the words of an iterator over a row of a swap -/
def SwapIter.word (it : SwapIter) : SwapIter64 := { row := BitVec.ofNat 64 it.row, halfN := it.halfN, lastCol := it.lastCol.map (BitVec.ofNat 64) }

theorem lowMask64 (row : ℕ) {h : ℕ} (hh : h < 64) (hr : row < 2 ^ 64) :
    BitVec.ofNat 64 row &&& ~~~(BitVec.allOnes 64 <<< h) = BitVec.ofNat 64 (row &&& ((1 <<< h) - 1)) := by
  apply BitVec.eq_of_getLsbD_eq
  intro i hi
  rw [BitVec.getLsbD_and, BitVec.getLsbD_not, BitVec.getLsbD_shiftLeft, BitVec.getLsbD_allOnes, BitVec.getLsbD_ofNat, BitVec.getLsbD_ofNat, Nat.testBit_and, Nat.one_shiftLeft, Nat.testBit_two_pow_sub_one]
  by_cases h1 : i < h
  · simp [hi, h1]
  · have : i - h < 64 := by omega
    simp [hi, h1, this]

theorem swap_sim [One K] (checked : Bool) {h : ℕ} (hh : h ≤ 31) :
    IterSim (K := K) SwapIter.next (SwapIter64.next checked) SwapIter.word (fun s => s.halfN = h ∧ s.row < 2 ^ (2 * h)) (2 ^ (2 * h)) := by
  rintro ⟨row, h', lc⟩ ⟨rfl, h1⟩
  simp only at h1 hh
  have hp : (2 : ℕ) ^ (2 * h') = 2 ^ h' * 2 ^ h' := by rw [two_mul, pow_add]
  have hb : (2 : ℕ) ^ (2 * h') ≤ 2 ^ 62 := Nat.pow_le_pow_right (by norm_num) (by omega)
  cases lc with
  | some c => exact ⟨none, _, rfl, rfl, ⟨rfl, h1⟩, by simp⟩
  | none =>
    have l1 : row &&& ((1 <<< h') - 1) ≤ 2 ^ h' - 1 := by rw [Nat.one_shiftLeft]; exact Nat.and_le_right
    have l2 : (row &&& ((1 <<< h') - 1)) <<< h' ≤ (2 ^ h' - 1) * 2 ^ h' := by rw [Nat.shiftLeft_eq]; exact Nat.mul_le_mul_right _ l1
    have l3 : row >>> h' < 2 ^ h' := by
      rw [Nat.shiftRight_eq_div_pow]
      exact Nat.div_lt_of_lt_mul (by omega)
    have l0 : 0 < 2 ^ h' := by positivity
    have l4 : (2 ^ h' - 1) * 2 ^ h' + 2 ^ h' = 2 ^ h' * 2 ^ h' := by
      rw [← Nat.succ_mul]
      congr 1
      omega
    refine ⟨some ((row &&& ((1 <<< h') - 1)) <<< h' + row >>> h', 1), _, rfl, ?_, ⟨rfl, h1⟩, fun e he => by cases he; simp only; omega⟩
    unfold SwapIter64.next SwapIter.word shl64
    simp only [Option.map_none]
    rw [if_pos (by omega)]
    simp only [Option.bind_eq_bind, Option.bind_some]
    rw [shr64_fits checked (by omega) (by omega), lowMask64 row (by omega) (by omega)]
    simp only [Option.bind_some]
    have e := shl64_fits checked (a := row &&& ((1 <<< h') - 1)) (k := h') (by omega) (by omega)
    unfold shl64 at e
    rw [e]
    simp only [Option.bind_some]
    rw [add64_fits checked (by omega)]
    rfl

/-- the words of a controlled iterator -/
def CtrlIter.word {σ σ' : Type} (f : σ → σ') (it : CtrlIter σ) : CtrlIter64 σ' :=
  { row := BitVec.ofNat 64 it.row, indexThreshold := BitVec.ofNat 64 it.indexThreshold, opIter := it.opIter.map f, lastCol := it.lastCol.map (BitVec.ofNat 64) }

theorem ctrl_sim [One K] (checked : Bool) {σ σ' : Type} {next : σ → Option (Option (ℕ × K) × σ)} {next64 : σ' → Option (Option (BitVec 64 × K) × σ')} {f : σ → σ'}
    {I : σ → Prop} {B C : ℕ} (h : IterSim next next64 f I B) (hC : C ≤ 2 ^ 64) :
    IterSim (CtrlIter.next next) (CtrlIter64.next checked next64) (CtrlIter.word f)
      (fun s => s.row < C ∧ s.indexThreshold + B ≤ C ∧ (∀ i, s.opIter = some i → I i) ∧ ∀ c, s.lastCol = some c → c < C) C := by
  rintro ⟨row, thr, op, lc⟩ ⟨h1, h2, h3, h4⟩
  simp only at h1 h2 h3 h4
  cases op with
  | some s =>
    obtain ⟨o, s', e1, e2, e3, e4⟩ := h s (h3 s rfl)
    have hb : ∀ e, o.map (fun p => (p.1 + thr, p.2)) = some e → e.1 < C := fun e he => by
      obtain ⟨e', g1, g2⟩ := Option.map_eq_some_iff.mp he
      have := e4 e' g1
      rw [← g2]
      simp only
      omega
    refine ⟨o.map (fun p => (p.1 + thr, p.2)), ⟨row, thr, some s', (o.map (fun p => (p.1 + thr, p.2))).map Prod.fst⟩, ?_, ?_, ⟨h1, h2, ?_, ?_⟩, hb⟩
    · unfold CtrlIter.next
      simp only [e1]
      rfl
    · unfold CtrlIter64.next CtrlIter.word
      simp only [Option.map_some, e2, Option.bind_eq_bind, Option.bind_some]
      cases o with
      | none => rfl
      | some e =>
        have := e4 e rfl
        simp only [Option.map_some, wordItem]
        rw [add64_fits checked (by omega)]
        rfl
    · intro i hi; cases hi; exact e3
    · intro c hc
      obtain ⟨e, g1, g2⟩ := Option.map_eq_some_iff.mp hc
      exact g2 ▸ hb e g1
  | none =>
    unfold CtrlIter.next CtrlIter64.next CtrlIter.word
    simp only [Option.map_none]
    cases lc with
    | none => exact ⟨_, _, rfl, rfl, ⟨h1, h2, by simp, fun c hc => by cases hc; exact h1⟩, fun e he => by cases he; exact h1⟩
    | some c =>
      have hc := h4 c rfl
      simp only [Option.map_some]
      rw [toNat_ofNat64 (by omega), toNat_ofNat64 (by omega)]
      split_ifs
      · exact ⟨_, _, rfl, rfl, ⟨h1, h2, by simp, fun c hc => by cases hc; exact h1⟩, fun e he => by cases he; exact h1⟩
      · exact ⟨_, _, rfl, rfl, ⟨h1, h2, by simp, by simp⟩, by simp⟩

theorem CtrlIter64.new_fits {σ σ' : Type} (checked : Bool) {row nc no : ℕ} (hn : nc + no < 64) (hr : row < 2 ^ (nc + no)) {f : σ → σ'} {mk : ℕ → Option σ}
    {mk64 : BitVec 64 → Option σ'} (h : ∀ r, r < 2 ^ no → mk64 (BitVec.ofNat 64 r) = (mk r).map f) :
    CtrlIter64.new checked (BitVec.ofNat 64 row) nc no mk64 = (CtrlIter.new row nc no mk).map (CtrlIter.word f) := by
  have p1 : (2 : ℕ) ^ (nc + no) < 2 ^ 64 := Nat.pow_lt_pow_right (by norm_num) hn
  have p2 : (2 : ℕ) ^ no ≤ 2 ^ (nc + no) := Nat.pow_le_pow_right (by norm_num) (by omega)
  have p3 : 0 < 2 ^ no := by positivity
  unfold CtrlIter64.new CtrlIter.new
  simp only
  rw [shlOne64_fits checked hn, shlOne64_fits checked (by omega)]
  simp only [Option.bind_eq_bind, Option.bind_some]
  rw [sub64_fits checked p2 p1]
  simp only [Option.bind_some, Nat.one_shiftLeft]
  rw [toNat_ofNat64 (by omega), toNat_ofNat64 (by omega)]
  by_cases hc : 2 ^ (nc + no) - 2 ^ no ≤ row
  · rw [if_pos hc, if_pos hc, sub64_fits checked hc (by omega), Option.bind_some, h _ (by omega)]
    cases mk (row - (2 ^ (nc + no) - 2 ^ no)) <;> rfl
  · rw [if_neg hc, if_neg hc]
    rfl

theorem ctrl_new_inv {σ : Type} {row nc no : ℕ} (hr : row < 2 ^ (nc + no)) {mk : ℕ → Option σ} {I : σ → Prop} (hI : ∀ r s, r < 2 ^ no → mk r = some s → I s) {it : CtrlIter σ}
    (h : CtrlIter.new row nc no mk = some it) :
    it.row < 2 ^ (nc + no) ∧ it.indexThreshold + 2 ^ no ≤ 2 ^ (nc + no) ∧ (∀ i, it.opIter = some i → I i) ∧ ∀ c, it.lastCol = some c → c < 2 ^ (nc + no) := by
  have p2 : (2 : ℕ) ^ no ≤ 2 ^ (nc + no) := Nat.pow_le_pow_right (by norm_num) (by omega)
  unfold CtrlIter.new at h
  simp only [Nat.one_shiftLeft] at h
  split_ifs at h with hc
  · obtain ⟨s, s1, s2⟩ := Option.map_eq_some_iff.mp h
    subst s2
    refine ⟨hr, by simp only; omega, fun i hi => ?_, by simp⟩
    cases hi
    exact hI _ _ (by omega) s1
  · cases h
    exact ⟨hr, by simp only; omega, by simp, by simp⟩

/-- the data of an op fit into a `Vec` -/
def MatrixOp.Fits : MatrixOp K → Prop
  | .matrix _ data => data.length < 2 ^ 63
  | .control _ _ op => op.Fits
  | _ => True

theorem square_fits {k : ℕ} (h : 2 ^ k * 2 ^ k < 2 ^ 63) : k ≤ 31 := by
  by_contra hc
  have h1 : (2 : ℕ) ^ 32 ≤ 2 ^ k := Nat.pow_le_pow_right (by norm_num) (by omega)
  have h2 : (2 : ℕ) ^ 32 * 2 ^ 32 ≤ 2 ^ k * 2 ^ k := Nat.mul_le_mul h1 h1
  omega

theorem mat_new_inv {row n : ℕ} {data : List K} {s : MatIter K} (h : MatIter.new row n data = some s) :
    s.n = n ∧ s.data.length = 2 ^ n ∧ ∀ c, s.lastCol = some c → c < 2 ^ n := by
  unfold MatIter.new slice at h
  simp only [Option.bind_eq_bind] at h
  obtain ⟨d, d1, d2⟩ := Option.bind_eq_some_iff.mp h
  cases d2
  split_ifs at d1 with hc
  cases d1
  refine ⟨rfl, ?_, by simp⟩
  have g1 : getFlatIndex n row 0 = row * 2 ^ n := by simp [getFlatIndex, Nat.one_shiftLeft]
  have g2 : getFlatIndex n row (1 <<< n) = row * 2 ^ n + 2 ^ n := by simp [getFlatIndex, Nat.one_shiftLeft]
  rw [g1, g2] at hc ⊢
  rw [List.length_drop, List.length_take]
  omega

theorem sparse_new_inv {row B : ℕ} {data : List (List (ℕ × K))} (hB : ∀ r ∈ data, ∀ e ∈ r, e.1 < B) {s : SparseIter K} (h : SparseIter.new row data = some s) :
    ∀ e ∈ s.data, e.1 < B := by
  unfold SparseIter.new at h
  simp only [Option.bind_eq_bind] at h
  obtain ⟨d, d1, d2⟩ := Option.bind_eq_some_iff.mp h
  cases d2
  exact hB d (List.mem_of_getElem? d1)

variable [Zero K] [One K] [DecidableEq K]

theorem controlItems64_fits (checked : Bool) (op : MatrixOp K) (hw : op.WF) (hf : op.Fits) {row nc no : ℕ} (hno : op.indices.length = no) (hn : nc + no < 64)
    (hr : row < 2 ^ (nc + no)) {l : List (ℕ × K)} (h : op.controlItems row nc no = some l) :
    controlItems64 checked op (BitVec.ofNat 64 row) nc no = some (l.map wordItem) ∧ ∀ e ∈ l, e.1 < 2 ^ (nc + no) := by
  have hC : (2 : ℕ) ^ (nc + no) ≤ 2 ^ 64 := Nat.pow_le_pow_right (by norm_num) (by omega)
  induction op generalizing nc no with
  | matrix idx data =>
    have h31 : no ≤ 31 := by
      have e1 : data.length = _ := hw
      have e2 : data.length < _ := hf
      rw [← hno]
      exact square_fits (e1 ▸ e2)
    simp only [MatrixOp.controlItems, Option.bind_eq_bind] at h
    obtain ⟨it, i1, i2⟩ := Option.bind_eq_some_iff.mp h
    obtain ⟨r, r1, r2⟩ := Option.bind_eq_some_iff.mp i2
    cases r2
    obtain ⟨d1, d2⟩ := (ctrl_sim checked (mat_sim (K := K) checked h31) hC).drain (ctrl_new_inv hr (fun _ _ _ hs => mat_new_inv hs) i1) r1
    refine ⟨?_, d2⟩
    simp only [controlItems64, Option.bind_eq_bind]
    rw [CtrlIter64.new_fits checked hn hr (fun r hr => MatIter64.new_fits checked data h31 hr), i1]
    simp only [Option.map_some, Option.bind_some, d1]
  | sparse idx rows =>
    have hB : ∀ r ∈ rows, ∀ e ∈ r, e.1 < 2 ^ no := fun r hr e he => hno ▸ hw.2 r hr e he
    simp only [MatrixOp.controlItems, Option.bind_eq_bind] at h
    obtain ⟨it, i1, i2⟩ := Option.bind_eq_some_iff.mp h
    obtain ⟨r, r1, r2⟩ := Option.bind_eq_some_iff.mp i2
    cases r2
    obtain ⟨d1, d2⟩ := (ctrl_sim checked (sparse_sim (K := K) (2 ^ no)) hC).drain (ctrl_new_inv hr (fun _ _ _ hs => sparse_new_inv hB hs) i1) r1
    refine ⟨?_, d2⟩
    simp only [controlItems64, Option.bind_eq_bind]
    have p2 : (2 : ℕ) ^ no ≤ 2 ^ (nc + no) := Nat.pow_le_pow_right (by norm_num) (by omega)
    rw [CtrlIter64.new_fits checked (f := id) (mk := fun row => SparseIter.new row rows) hn hr (fun r hr => by rw [toNat_ofNat64 (by omega), Option.map_id]; rfl), i1]
    simp only [Option.map_some, Option.bind_some, d1]
  | swap a idx =>
    have hw' : idx.length = a * 2 := hw
    have hno' : no = 2 * a := by rw [← hno]; simp only [MatrixOp.indices]; omega
    simp only [MatrixOp.controlItems, Option.bind_eq_bind] at h
    obtain ⟨it, i1, i2⟩ := Option.bind_eq_some_iff.mp h
    obtain ⟨r, r1, r2⟩ := Option.bind_eq_some_iff.mp i2
    cases r2
    have hs := swap_sim (K := K) checked (h := a) (by omega)
    rw [← hno'] at hs
    obtain ⟨d1, d2⟩ := (ctrl_sim checked hs hC).drain (ctrl_new_inv hr (fun r s hr hs => by
      cases hs
      refine ⟨?_, hr⟩
      simp only [SwapIter.new, Nat.shiftRight_eq_div_pow]
      omega) i1) r1
    refine ⟨?_, d2⟩
    simp only [controlItems64, Option.bind_eq_bind]
    rw [CtrlIter64.new_fits checked (f := SwapIter.word) (mk := fun row => some (SwapIter.new row no)) hn hr (fun r hr => rfl), i1]
    simp only [Option.map_some, Option.bind_some, d1]
  | control nc' idx op ih =>
    obtain ⟨h1, h2, h3⟩ := hw
    have hno' : idx.length = no := hno
    simp only [MatrixOp.controlItems] at h
    rw [if_pos h1] at h
    have e : nc + nc' + (idx.length - nc') = nc + no := by omega
    have := ih h2 hf h3 (nc := nc + nc') (by omega) (by rw [e]; exact hr) h (by rw [e]; exact hC)
    rw [e] at this
    simp only [controlItems64]
    rw [if_pos h1]
    exact this

theorem items64_fits (checked : Bool) (op : MatrixOp K) (hw : op.WF) (hf : op.Fits) {row k : ℕ} (hk : op.indices.length = k) (hn : k < 64)
    (hr : row < 2 ^ k) {l : List (ℕ × K)} (h : op.items k row = some l) :
    items64 checked op k (BitVec.ofNat 64 row) = some (l.map wordItem) ∧ ∀ e ∈ l, e.1 < 2 ^ k := by
  have p1 : (2 : ℕ) ^ k < 2 ^ 64 := Nat.pow_lt_pow_right (by norm_num) hn
  cases op with
  | matrix idx data =>
    have h31 : k ≤ 31 := by
      have e1 : data.length = _ := hw
      have e2 : data.length < _ := hf
      rw [← hk]
      exact square_fits (e1 ▸ e2)
    simp only [MatrixOp.items, Option.bind_eq_bind] at h
    obtain ⟨it, i1, i2⟩ := Option.bind_eq_some_iff.mp h
    obtain ⟨r, r1, r2⟩ := Option.bind_eq_some_iff.mp i2
    cases r2
    obtain ⟨d1, d2⟩ := (mat_sim (K := K) checked h31).drain (mat_new_inv i1) r1
    refine ⟨?_, d2⟩
    simp only [items64, Option.bind_eq_bind]
    rw [MatIter64.new_fits checked data h31 hr, i1]
    simp only [Option.map_some, Option.bind_some, d1]
  | sparse idx rows =>
    have hB : ∀ r ∈ rows, ∀ e ∈ r, e.1 < 2 ^ k := fun r hr e he => hk ▸ hw.2 r hr e he
    simp only [MatrixOp.items, Option.bind_eq_bind] at h
    obtain ⟨it, i1, i2⟩ := Option.bind_eq_some_iff.mp h
    obtain ⟨r, r1, r2⟩ := Option.bind_eq_some_iff.mp i2
    cases r2
    obtain ⟨d1, d2⟩ := (sparse_sim (K := K) (2 ^ k)).drain (sparse_new_inv hB i1) r1
    refine ⟨?_, d2⟩
    simp only [id] at d1
    simp only [items64, Option.bind_eq_bind]
    rw [toNat_ofNat64 (by omega), i1]
    simp only [Option.bind_some, d1]
  | swap a idx =>
    have hw' : idx.length = a * 2 := hw
    have hk' : k = 2 * a := by rw [← hk]; simp only [MatrixOp.indices]; omega
    simp only [MatrixOp.items, Option.bind_eq_bind] at h
    obtain ⟨r, r1, r2⟩ := Option.bind_eq_some_iff.mp h
    cases r2
    have hs := swap_sim (K := K) checked (h := a) (by omega)
    rw [← hk'] at hs
    obtain ⟨d1, d2⟩ := hs.drain ⟨by simp only [SwapIter.new, Nat.shiftRight_eq_div_pow]; omega, hr⟩ r1
    refine ⟨?_, d2⟩
    simp only [items64, Option.bind_eq_bind]
    rw [show SwapIter64.new (BitVec.ofNat 64 row) k = (SwapIter.new row k).word from rfl, d1]
    rfl
  | control nc idx op =>
    obtain ⟨h1, h2, h3⟩ := hw
    have hk' : idx.length = k := hk
    simp only [MatrixOp.items] at h
    rw [if_pos h1] at h
    have e : nc + (idx.length - nc) = k := by omega
    have := controlItems64_fits checked op h2 hf h3 (nc := nc) (by omega) (by rw [e]; exact hr) h
    rw [e] at this
    simp only [items64]
    rw [if_pos h1]
    exact this

end

end Verif
