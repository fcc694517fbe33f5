import Verif.Model.WideCalc
import Verif.Proofs.Calc3

/-!
# Property C114: calculations of wide circuits

The length of the state vector is `1 << n`, a `usize`, and `Vec` holds no more than `isize::MAX` bytes.
-/

namespace Verif.Props

theorem shl_one_toNat {n : ℕ} (h : n < 64) : (1#64 <<< n).toNat = 2 ^ n := by
  rw [BitVec.toNat_shiftLeft, BitVec.toNat_ofNat, Nat.one_mod_two_pow (by omega), Nat.one_shiftLeft, Nat.mod_eq_of_lt (Nat.pow_lt_pow_right (by norm_num) h)]

theorem initReg64_step (checked : Bool) {n : ℕ} (hn : n < 64) (x : BitVec 64) (acc : BitVec 64) (i k : ℕ) (hi : i < n) (hk : k < 64) :
    ∃ v : BitVec 64, (do
      let index ← bitPos64 checked n i
      let y ← shr64 checked x k
      let v ← shl64 checked (y &&& 1#64) index
      some (acc ||| v)) = some v ∧ v.toNat = acc.toNat ||| (((x.toNat >>> k) &&& 1) <<< (n - 1 - i)) := by
  unfold bitPos64 shr64 shl64
  rw [if_pos hi, if_pos hk]
  simp only [Option.bind_eq_bind, Option.bind_some]
  rw [if_pos (by omega)]
  simp only [Option.bind_some]
  refine ⟨_, rfl, ?_⟩
  have h1 : ((x.toNat >>> k) &&& 1) <<< (n - 1 - i) < 2 ^ 64 := by
    have h2 : (x.toNat >>> k) &&& 1 ≤ 1 := Nat.and_le_right
    rw [Nat.shiftLeft_eq]
    calc _ ≤ 1 * 2 ^ (n - 1 - i) := Nat.mul_le_mul_right _ h2
      _ < 2 ^ 64 := by rw [one_mul]; exact Nat.pow_lt_pow_right (by norm_num) (by omega)
  rw [BitVec.toNat_or, BitVec.toNat_shiftLeft, BitVec.toNat_and, BitVec.toNat_ushiftRight, show (1#64).toNat = 1 from rfl, Nat.mod_eq_of_lt h1]

/-- the bits a register contributes to the initial index -/
def regBits (n : ℕ) (r : Reg) (x : ℕ) : List (ℕ × ℕ) := r.reverse.zipIdx.map fun p => (n - 1 - p.1, (x >>> (r.length - 1 - p.2)) &&& 1)

theorem initReg64_eq (checked : Bool) {n : ℕ} (hn : n < 64) (r : Reg) (hr : ∀ q ∈ r, q < n) (hl : r.length ≤ 64) (x acc : BitVec 64) :
    ∃ v : BitVec 64, initReg64 checked n r x acc = some v ∧ v.toNat = (regBits n r x.toNat).foldl (fun acc p => acc ||| (p.2 <<< p.1)) acc.toNat := by
  unfold initReg64 regBits
  have hm : ∀ p ∈ r.reverse.zipIdx, p.1 < n := fun p hp => by
    have h1 := (List.mem_zipIdx hp).2.2
    exact hr _ (List.mem_reverse.mp (by rw [h1]; exact List.getElem_mem _))
  generalize r.reverse.zipIdx = l at hm
  induction l generalizing acc with
  | nil => exact ⟨acc, rfl, rfl⟩
  | cons p l ih =>
    obtain ⟨v, v1, v2⟩ := initReg64_step checked hn x acc p.1 (r.length - 1 - p.2) (hm p (by simp)) (by omega)
    obtain ⟨w, w1, w2⟩ := ih v (fun p hp => hm p (by simp [hp]))
    refine ⟨w, ?_, ?_⟩
    · rw [List.foldlM_cons, v1]
      exact w1
    · rw [w2, v2]
      rfl

theorem init64_eq (checked : Bool) {n : ℕ} (hn : n < 64) (it : List (Reg × BitVec 64)) (h : ∀ p ∈ it, (∀ q ∈ p.1, q < n) ∧ p.1.length ≤ 64) :
    ∃ i : BitVec 64, it.foldlM (fun acc p => initReg64 checked n p.1 p.2 acc) 0#64 = some i ∧ initialIndex n (it.map fun p => (p.1, p.2.toNat)) = some i.toNat := by
  have e1 : ((it.map fun p => (p.1, p.2.toNat)).mapM fun p => initBits n p.1 p.2) = some ((it.map fun p => (p.1, p.2.toNat)).map fun p => regBits n p.1 p.2) := by
    apply mapM_some
    intro p hp
    obtain ⟨p0, hp0, rfl⟩ := List.mem_map.mp hp
    exact initBits_eq n p0.1 _ (h p0 hp0).1
  have e2 : ∀ acc : BitVec 64, ∃ i : BitVec 64, it.foldlM (fun acc p => initReg64 checked n p.1 p.2 acc) acc = some i ∧
      i.toNat = ((it.map fun p => (p.1, p.2.toNat)).map fun p => regBits n p.1 p.2).flatten.foldl (fun acc p => acc ||| (p.2 <<< p.1)) acc.toNat := by
    clear e1
    induction it with
    | nil => exact fun acc => ⟨acc, rfl, rfl⟩
    | cons p it ih =>
      intro acc
      obtain ⟨v, v1, v2⟩ := initReg64_eq checked hn p.1 (h p (by simp)).1 (h p (by simp)).2 p.2 acc
      obtain ⟨w, w1, w2⟩ := ih (fun p hp => h p (by simp [hp])) v
      refine ⟨w, by rw [List.foldlM_cons, v1]; exact w1, ?_⟩
      rw [w2, v2]
      simp only [List.map_cons, List.flatten_cons, List.foldl_append]
  obtain ⟨i, i1, i2⟩ := e2 0#64
  refine ⟨i, i1, ?_⟩
  unfold initialIndex
  rw [e1]
  simp only [Option.bind_eq_bind, Option.bind_some]
  rw [i2]
  rfl

/-- C114 as one would expect it: a calculation ends with a panic or returns a vector with an entry for each of the `2 ^ n` basis states, in both kinds of build. -/
def C114_claim : Prop :=
  ∀ (checked : Bool) (b : LocalBuilder) (it : List (Reg × BitVec 64)) (rnds : ℕ → ℝ) (c : List ℂ × List MeasResult), b.pipeline = [] →
    calculate64 checked 16 b it rnds = some c → c.1.length = 2 ^ b.n

/-- C114: as long as the state vector fits into a `Vec` (58 qubits for `f64`, 59 for `f32`) the machine words make no difference, whatever the initial values. -/
theorem C114_fits_partial (checked : Bool) (bytes : ℕ) (b : LocalBuilder) (hb : 0 < bytes) (hn : 2 ^ b.n * bytes < 2 ^ 63) (it : List (Reg × BitVec 64))
    (h : ∀ p ∈ it, p.1.Nodup ∧ ∀ q ∈ p.1, q < b.n) (rnds : ℕ → ℝ) :
    calculate64 checked bytes b it rnds = b.calculateStateWithInit (it.map fun p => (p.1, p.2.toNat)) rnds := by
  have hn' : b.n < 63 := by
    by_contra hc
    have h1 : 2 ^ 63 ≤ 2 ^ b.n := Nat.pow_le_pow_right (by norm_num) (by omega)
    have h2 : 2 ^ b.n * 1 ≤ 2 ^ b.n * bytes := Nat.mul_le_mul_left _ hb
    omega
  have hl : ∀ p ∈ it, (∀ q ∈ p.1, q < b.n) ∧ p.1.length ≤ 64 := fun p hp => by
    refine ⟨(h p hp).2, ?_⟩
    have h1 : p.1.toFinset ⊆ Finset.range b.n := fun q hq => Finset.mem_range.mpr ((h p hp).2 q (List.mem_toFinset.mp hq))
    have h2 := Finset.card_le_card h1
    rw [List.toFinset_card_of_nodup (h p hp).1, Finset.card_range] at h2
    omega
  obtain ⟨i, i1, i2⟩ := init64_eq checked (show b.n < 64 by omega) it hl
  have es : start64 checked bytes b.n it = if i.toNat < 2 ^ b.n then some ((List.replicate (2 ^ b.n) 0).set i.toNat 1) else none := by
    unfold start64 shlOne64 zeros64
    rw [if_pos (by omega)]
    simp only [Option.bind_eq_bind, Option.bind_some]
    rw [shl_one_toNat (by omega), if_pos hn, i1]
    simp only [Option.bind_some, List.length_replicate]
  unfold calculate64 LocalBuilder.calculateStateWithInit
  rw [es, i2]
  simp only [Option.bind_eq_bind, Option.bind_some, Nat.one_shiftLeft, List.length_replicate]
  split_ifs with hi
  · simp only [Option.bind_some, List.length_set, List.length_replicate]
  · rfl

/-- C114: with overflow checks every wider circuit panics. -/
theorem C114_panics (bytes : ℕ) (b : LocalBuilder) (hn : 2 ^ 63 ≤ 2 ^ b.n * bytes) (it : List (Reg × BitVec 64)) (rnds : ℕ → ℝ) :
    calculate64 true bytes b it rnds = none := by
  have es : start64 true bytes b.n it = none := by
    unfold start64 shlOne64 zeros64
    split_ifs with h h'
    · simp only [Option.bind_eq_bind, Option.bind_some]
      rw [shl_one_toNat h, if_neg (by omega)]
      rfl
    · rfl
    · exact absurd rfl h'
  unfold calculate64
  rw [es]
  rfl

/-- C114: without overflow checks so do those of up to 63 qubits … -/
theorem C114_release_panics (bytes : ℕ) (b : LocalBuilder) (hn : 2 ^ 63 ≤ 2 ^ b.n * bytes) (h : b.n < 64) (it : List (Reg × BitVec 64)) (rnds : ℕ → ℝ) :
    calculate64 false bytes b it rnds = none := by
  have es : start64 false bytes b.n it = none := by
    unfold start64 shlOne64 zeros64
    rw [if_pos h]
    simp only [Option.bind_eq_bind, Option.bind_some]
    rw [shl_one_toNat h, if_neg (by omega)]
    rfl
  unfold calculate64
  rw [es]
  rfl

/-- C114: … but `64 k + j` qubits give a state of `j` qubits, with `j` up to 58 for `f64` and 59 for `f32`. -/
theorem C114_wraps (bytes : ℕ) (b : LocalBuilder) (h : 64 ≤ b.n) (hn : 2 ^ (b.n % 64) * bytes < 2 ^ 63) (hp : b.pipeline = []) (rnds : ℕ → ℝ) :
    calculate64 false bytes b [] rnds = some ((List.replicate (2 ^ (b.n % 64)) 0).set 0 1, []) := by
  have es : start64 false bytes b.n [] = some ((List.replicate (2 ^ (b.n % 64)) 0).set 0 1) := by
    unfold start64 shlOne64 zeros64
    rw [if_neg (by omega), if_neg (by simp)]
    simp only [Option.bind_eq_bind, Option.bind_some]
    rw [shl_one_toNat (Nat.mod_lt _ (by norm_num)), if_pos hn]
    simp only [Option.bind_some, List.foldlM_nil, pure, List.length_replicate]
    rw [if_pos (by simp)]
    rfl
  unfold calculate64
  rw [es, hp]
  rfl

theorem C114_refuted : ¬ C114_claim := by
  intro h
  have h1 := h false ⟨[], 64, [], 0⟩ [] (fun _ => 1 / 2) _ rfl (C114_wraps 16 ⟨[], 64, [], 0⟩ (le_refl _) (by norm_num) rfl _)
  simp only [List.length_set, List.length_replicate] at h1
  norm_num at h1

/-! ## examples -/

example (rnds : ℕ → ℝ) (p : Pipeline) : calculate64 true 16 ⟨p, 58, [], 0⟩ [([3, 57], 2#64)] rnds =
    LocalBuilder.calculateStateWithInit ⟨p, 58, [], 0⟩ [([3, 57], 2)] rnds :=
  C114_fits_partial true 16 ⟨p, 58, [], 0⟩ (by norm_num) (by norm_num) [([3, 57], 2#64)] (by simp) rnds

example (rnds : ℕ → ℝ) (p : Pipeline) : calculate64 true 16 ⟨p, 59, [], 0⟩ [([3, 57], 2#64)] rnds = none :=
  C114_panics 16 ⟨p, 59, [], 0⟩ (by norm_num) _ rnds

example (rnds : ℕ → ℝ) (p : Pipeline) : calculate64 false 8 ⟨p, 60, [], 0⟩ [] rnds = none :=
  C114_release_panics 8 ⟨p, 60, [], 0⟩ (by norm_num) (by norm_num) _ rnds

/-- 65 qubits -/
example (rnds : ℕ → ℝ) : calculate64 false 16 ⟨[], 65, [], 0⟩ [] rnds = some ([1, 0], []) :=
  C114_wraps 16 ⟨[], 65, [], 0⟩ (by norm_num) (by norm_num) rfl rnds

end Verif.Props
