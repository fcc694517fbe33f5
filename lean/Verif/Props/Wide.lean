import Verif.Proofs.Wide
import Verif.Proofs.Add2
import Verif.Spec.Examples
import Verif.Spec.Clean

/-!
# Property C111: wide registers

`qfft` takes its denominators from `1 << (j - i)`, an `i64`, and the conditions of the program macro come from a `u64`. Here both are machine words.
-/

namespace Verif.Props

/-- the angle of a rotation by the power `k`, as documented (qfft.rs L22, builder_traits.rs `rz_pi_by`): a denominator that fits and the fraction `1 / 2 ^ k` -/
theorem C111_angle (checked : Bool) (k : ℕ) :
    (k < 63 → ∃ m, shlOne64 checked k = some m ∧ m.toInt = 2 ^ k ∧ ratioOne64 checked m = some (1, 2 ^ k)) ∧
    (k = 63 → ∃ m, shlOne64 checked k = some m ∧ m.toInt = -2 ^ 63 ∧ ratioOne64 true m = none ∧ ratioOne64 false m = some (-1, -2 ^ 63)) ∧
    (64 ≤ k → shlOne64 true k = none ∧ shlOne64 false k = some (1#64 <<< (k % 64))) := by
  refine ⟨fun h => ?_, fun h => ?_, fun h => ?_⟩
  · have ht := shl_toInt k h
    have hp : (0 : ℤ) < 2 ^ k := by positivity
    refine ⟨1#64 <<< k, ?_, ht, ?_⟩
    · unfold shlOne64
      rw [if_pos (by omega)]
    · unfold ratioOne64
      rw [ht, if_neg (by omega), if_neg (by omega)]
  · subst h
    exact ⟨_, rfl, by decide, by decide, by decide⟩
  · unfold shlOne64
    simp only [show ¬ k < 64 by omega, if_false]
    exact ⟨rfl, rfl⟩

example : ∃ m, shlOne64 true 5 = some m ∧ m.toInt = 32 ∧ ratioOne64 true m = some (1, 32) := (C111_angle true 5).1 (by norm_num)

/-- `rz_pi_by(r, m)` for every `i64` `m`: an error for 0, and otherwise a rotation by the fraction `1 / m` of `π`, unless `m` is the smallest number. -/
theorem C111_pi_by (checked : Bool) (r : Reg) (m : BitVec 64) :
    (m = 0#64 → rzPiBy64 checked r m = throw .error) ∧
    (m ≠ 0#64 → m.toInt ≠ -2 ^ 63 → rzPiBy64 checked r m = LocalBuilder.applyCO r ⟨r.length, .unitary (.Rz (.piRational (1 / (m.toInt : ℚ))))⟩) ∧
    (m.toInt = -2 ^ 63 → rzPiBy64 true r m = throw .panic ∧ rzPiBy64 false r m = LocalBuilder.applyCO r ⟨r.length, .unitary (.Rz (.piRational (1 / 2 ^ 63)))⟩) := by
  refine ⟨fun h => ?_, fun h0 hm => ?_, fun h => ?_⟩
  · subst h; rfl
  · have h0' : m.toInt ≠ 0 := fun h => h0 (BitVec.eq_of_toInt_eq h)
    unfold rzPiBy64 ratioOne64
    rw [if_neg h0', if_neg h0']
    split
    · rw [if_neg (by rintro rfl; exact hm (by decide)), unwrapO_some, pure_bind]
      push_cast
      rw [neg_div_neg_eq]
    · rw [unwrapO_some, pure_bind]
      push_cast
      trivial
  · obtain rfl : m = BitVec.intMin 64 := BitVec.eq_of_toInt_eq (h.trans (by decide))
    have h1 : ratioOne64 true (BitVec.intMin 64) = none := by decide
    have h2 : ratioOne64 false (BitVec.intMin 64) = some (-1, -2 ^ 63) := by decide
    unfold rzPiBy64
    rw [if_neg (by decide), if_neg (by decide), h1, h2, unwrapO_none, unwrapO_some, pure_bind]
    refine ⟨rfl, ?_⟩
    norm_num

/-- instance: a negative denominator -/
example (r : Reg) : rzPiBy64 true r (-4#64) = LocalBuilder.applyCO r ⟨r.length, .unitary (.Rz (.piRational (-1 / 4)))⟩ := by
  rw [(C111_pi_by true r (-4#64)).2.1 (by decide) (by decide), show (-4#64 : BitVec 64).toInt = -4 by decide]
  norm_num

/-- C111 as stated: `qfft` transforms every register that is not empty, in both kinds of build -/
def C111_claim : Prop :=
  ∀ (checked : Bool) (r : Reg) (s : LocalBuilder), r ≠ [] → Own s r → ∃ s', qfft64 checked r s = .ok r s'

/-- on registers of up to 63 qubits – 64 without overflow checks – the machine words make no difference, so C52 and all other theorems about `qfft` hold -/
theorem C111_qfft_partial (checked : Bool) (r : Reg) (hr : r ≠ []) (hn : r.Nodup) (h : r.length ≤ 63 ∨ (checked = false ∧ r.length ≤ 64)) :
    qfft64 checked r = qfft r := by
  have e1 := qfft64_emits checked r hr hn (h.imp_right And.left)
  have e2 := qfft_emits r hr hn
  rw [qfftColsSeg64_eq r (by omega)] at e1
  funext s
  exact (e1 s).trans (e2 s).symm

example : qfft64 true (List.range 63) = qfft (List.range 63) :=
  C111_qfft_partial true _ (by simp) List.nodup_range (.inl (by simp))

example : qfft64 false (List.range 64) = qfft (List.range 64) :=
  C111_qfft_partial false _ (by simp) List.nodup_range (.inr ⟨rfl, by simp⟩)

/-- with overflow checks `qfft` panics on every register of 64 qubits or more -/
theorem C111_panics (r : Reg) (hn : r.Nodup) (h : 64 ≤ r.length) (s : LocalBuilder) : ∃ s', qfft64 true r s = .error .panic s' :=
  qfft64_panics r hn h s

example (s : LocalBuilder) : ∃ s', qfft64 true (List.range 100) s = .error .panic s' :=
  C111_panics _ List.nodup_range (by simp) s

theorem C111_refuted : ¬ C111_claim := by
  intro h
  have ho : Own ⟨[], 64, [], 0⟩ (List.range 64) := ⟨by simp, by simpa using List.nodup_range, by simp⟩
  obtain ⟨s', h⟩ := h true (List.range 64) _ (by simp) ho
  obtain ⟨s'', h'⟩ := C111_panics (List.range 64) List.nodup_range (by simp) _
  rw [h] at h'
  cases h'

/-- without overflow checks `qfft` succeeds on every register, but the exponents are taken modulo 64: qubit `i` is rotated by `1 / 2 ^ ((j - i) % 64)` -/
theorem C111_release (r : Reg) (hr : r ≠ []) (hn : r.Nodup) : Emits (qfft64 false r) r (qfftColsSeg64 r ++ qfftSwapsSeg r) :=
  qfft64_emits false r hr hn (.inr rfl)

example : Emits (qfft64 false (List.range 100)) (List.range 100) (qfftColsSeg64 (List.range 100) ++ qfftSwapsSeg (List.range 100)) :=
  C111_release _ (by simp) List.nodup_range

/-- from 65 qubits on the circuit is another one than that of the documented angles: the rotation of the first qubit that belongs to the 65th is by 1 instead of
by `1 / 2 ^ 64` -/
theorem C111_wraps (r : Reg) (hn : r.Nodup) (h : 65 ≤ r.length) (s : LocalBuilder) :
    ∃ s₁ s₂ q, qfft r s = .ok r s₁ ∧ qfft64 false r s = .ok r s₂ ∧ r[0]? = some q ∧
      s₁.pipeline[s.pipeline.length + 63]? = some ([q], ⟨1, .unitary (.Rz (.piRational (1 / 2 ^ 64)))⟩) ∧
      s₂.pipeline[s.pipeline.length + 63]? = some ([q], ⟨1, .unitary (.Rz (.piRational 1))⟩) := by
  have hr : r ≠ [] := by rintro rfl; simp at h
  have e1 := qfft_emits r hr hn s
  have e2 := qfft64_emits false r hr hn (.inr rfl) s
  obtain ⟨q, t, rfl⟩ : ∃ q t, r = q :: t := by
    cases r with
    | nil => exact absurd rfl hr
    | cons q t => exact ⟨q, t, rfl⟩
  rw [List.length_cons] at h
  refine ⟨_, _, q, e1, e2, rfl, ?_, ?_⟩
  · simp only
    rw [List.getElem?_append_right (by omega), Nat.add_sub_cancel_left, qfftColsSeg, qfftColSeg]
    simp only [List.append_assoc]
    rw [colsSeg_get (fun d => (([q], ⟨1, .unitary (.Rz (.piRational (1 / (((2 ^ d : ℕ) : ℤ) : ℚ))))⟩) : List ℕ × CObj)) t.length 63 (by omega)]
    norm_num
  · simp only
    rw [List.getElem?_append_right (by omega), Nat.add_sub_cancel_left, qfftColsSeg64, qfftColSeg64]
    simp only [List.append_assoc]
    rw [colsSeg_get (fun d => (([q], ⟨1, .unitary (.Rz (.piRational (angle64 d)))⟩) : List ℕ × CObj)) t.length 63 (by omega)]
    simp [angle64]

example (s : LocalBuilder) : ∃ s₁ s₂ q, qfft (List.range 65) s = .ok (List.range 65) s₁ ∧ qfft64 false (List.range 65) s = .ok (List.range 65) s₂ ∧
    (List.range 65)[0]? = some q ∧
      s₁.pipeline[s.pipeline.length + 63]? = some ([q], ⟨1, .unitary (.Rz (.piRational (1 / 2 ^ 64)))⟩) ∧
      s₂.pipeline[s.pipeline.length + 63]? = some ([q], ⟨1, .unitary (.Rz (.piRational 1))⟩) :=
  C111_wraps _ List.nodup_range (by simp) s

/-- masks as machine words select the same qubits as their values, on registers of every length -/
theorem C111_mask {β : Type} [CliffordT β] (r : Reg) (mask : BitVec 64) : (negateBitmask64 r mask : M β Reg) = negateBitmask r mask.toNat :=
  negateBitmask64_eq r mask

example : (negateBitmask64 (List.range 70) 5#64 : M LocalBuilder Reg) = negateBitmask (List.range 70) 5 := C111_mask _ 5#64

/-- so no condition can ask for a value of `2 ^ 64` or more of a longer register -/
theorem C111_mask_wide (mask : BitVec 64) (c : Reg) (x : Asg) (h : 2 ^ 64 ≤ valQ c x) : ¬ Holds (some mask.toNat) c x := by
  unfold Holds
  have h1 := mask.isLt
  have h2 := Nat.mod_le mask.toNat (2 ^ c.length)
  simp only
  omega

example (mask : BitVec 64) : ¬ Holds (some mask.toNat) (List.range 65) (fun q => decide (q = 64)) := by
  refine C111_mask_wide mask _ _ ?_
  decide +kernel

end Verif.Props
