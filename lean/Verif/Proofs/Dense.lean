import Verif.Spec.Dense
import Verif.Proofs.Teleport

/-! # Dense coding -/

namespace Verif
open Complex Finset

theorem flip_a {n u : ℕ} (hu : u < 2 ^ n) (s t w : ℕ) : negMask (List.range n) (2 ^ n - 1 - u) (triAsg n s t w) = triAsg n (s ^^^ u) t w := by
  funext q
  have hb : ∀ i, (2 ^ n - 1 - u).testBit i = (decide (i < n) && !u.testBit i) := fun i => by
    rw [show 2 ^ n - 1 - u = 2 ^ n - (u + 1) by omega, Nat.testBit_two_pow_sub_succ hu]
  unfold negMask
  rw [List.range_eq_range']
  simp only [List.mem_range'_1]
  by_cases h : 0 ≤ q ∧ q < 0 + n
  · have h' : q < n := by omega
    rw [idx_range' 0 n q h, Nat.sub_zero, hb, tri_at, tri_at, if_pos h', if_pos h', Nat.testBit_xor]
    cases hq : u.testBit q <;> simp [h']
  · have h' : ¬ q < n := by omega
    rw [if_neg fun h2 => h h2.1, tri_at, tri_at, if_neg h', if_neg h']

/-- Z on the qubits of the ones of `v`, made of H and `negate_bitmask` -/
theorem had_flip_had {n s v : ℕ} (hs : s < 2 ^ n) (hv : v < 2 ^ n) (t w : ℕ) :
    eachW (Named.mat .h) (List.range n) (lift (fun x => ket (negMask (List.range n) (2 ^ n - 1 - v) x))
      (eachW (Named.mat .h) (List.range n) (ket (triAsg n s t w)))) = (-1 : ℂ) ^ dot n s v • ket (triAsg n s t w) := by
  have h := had_twice (List.range n) List.nodup_range (ket (triAsg n s t w))
  rw [had_a n s t w hs] at h ⊢
  rw [← h, ← map_smul]
  congr 1
  rw [map_smul, map_sum, smul_comm]
  congr 1
  simp only [map_smul, lift_ket, flip_a hv]
  rw [← sum_xor n v hv fun z => (-1 : ℂ) ^ dot n s z • ket (triAsg n z t w), smul_sum]
  refine sum_congr rfl fun z _ => ?_
  rw [sign_xor_right, smul_smul, ← mul_assoc, mul_comm, ← mul_assoc, ← mul_pow, neg_one_mul, neg_neg, one_pow, one_mul]

theorem dense_f0 (n : ℕ) : groupReg [List.range n, List.range' n n] [(0, none)] = List.range n := groupReg_all _ 0
theorem dense_f1 (n : ℕ) : groupReg [List.range n, List.range' n n] [(1, none)] = List.range' n n := groupReg_all _ 1

theorem dense_takes {n : ℕ} (hn : 0 < n) (u v : ℕ) : densePair.Takes false [List.range n, List.range' n n] ∧
    (denseSend n u v).Takes false [List.range n, List.range' n n] ∧ denseRead.Takes false [List.range n, List.range' n n] := by
  have h0 : List.range n ≠ [] := by simp; omega
  have g0 := wide_in (m := n) hn
  have g1 := wide_both hn hn
  simp only [densePair, denseSend, denseRead, Prog.Takes, Lines.Takes, List.map_cons, List.map_nil, dense_f0, dense_f1, Method.Takes]
  exact ⟨⟨by simp; omega, g0, ⟨h0, by simp⟩, g1, ⟨h0, by simp⟩, trivial⟩,
    ⟨by simp; omega, g0, by simpa using h0, g0, ⟨h0, by simp⟩, g0, by simpa using h0, g0, ⟨h0, by simp⟩, trivial⟩,
    ⟨by simp; omega, g1, ⟨h0, by simp⟩, g0, ⟨h0, by simp⟩, trivial⟩⟩

theorem pair_lift (n : ℕ) (ψ : Wave) : lift (densePair.wave false [List.range n, List.range' n n]) ψ =
    lift (fun x => ket (xorMap (List.range n) (List.range' n n) x)) (eachW (Named.mat .h) (List.range n) ψ) := by
  have : lift (densePair.wave false [List.range n, List.range' n n]) =
      lift (fun x => ket (xorMap (List.range n) (List.range' n n) x)) ∘ₗ eachW (Named.mat .h) (List.range n) := wave_ext fun x => by
    simp only [densePair, Prog.wave, Lines.wave, lift_eq, List.map_cons, List.map_nil, dense_f0, dense_f1, Method.wave, Bool.false_eq_true, if_false, LinearMap.comp_apply, lift_ket]
  exact LinearMap.congr_fun this ψ

theorem send_lift (n u v : ℕ) (ψ : Wave) : lift ((denseSend n u v).wave false [List.range n, List.range' n n]) ψ =
    eachW (Named.mat .h) (List.range n) (lift (fun x => ket (negMask (List.range n) (2 ^ n - 1 - v) x)) (eachW (Named.mat .h) (List.range n)
      (lift (fun x => ket (negMask (List.range n) (2 ^ n - 1 - u) x)) ψ))) := by
  have : lift ((denseSend n u v).wave false [List.range n, List.range' n n]) =
      eachW (Named.mat .h) (List.range n) ∘ₗ lift (fun x => ket (negMask (List.range n) (2 ^ n - 1 - v) x)) ∘ₗ eachW (Named.mat .h) (List.range n) ∘ₗ
        lift (fun x => ket (negMask (List.range n) (2 ^ n - 1 - u) x)) := wave_ext fun x => by
    simp only [denseSend, Prog.wave, Lines.wave, lift_eq, List.map_cons, List.map_nil, dense_f0, Method.wave, Bool.false_eq_true, if_false, LinearMap.comp_apply, lift_ket]
    have hA : ∀ (A : Wave →ₗ[ℂ] Wave) (U : Asg → Wave) (ψ : Wave), lift (fun x => A (U x)) ψ = A (lift U ψ) := fun A U ψ => by
      have : lift (fun x => A (U x)) = A ∘ₗ lift U := wave_ext fun x => by rw [lift_ket, LinearMap.comp_apply, lift_ket]
      rw [this]; rfl
    simp only [hA, lift_ket_id, LinearMap.id_apply]
  exact LinearMap.congr_fun this ψ

theorem read_lift (n : ℕ) (ψ : Wave) : lift (denseRead.wave false [List.range n, List.range' n n]) ψ =
    eachW (Named.mat .h) (List.range n) (lift (fun x => ket (xorMap (List.range n) (List.range' n n) x)) ψ) := by
  have : lift (denseRead.wave false [List.range n, List.range' n n]) =
      eachW (Named.mat .h) (List.range n) ∘ₗ lift (fun x => ket (xorMap (List.range n) (List.range' n n) x)) := wave_ext fun x => by
    simp only [denseRead, Prog.wave, Lines.wave, lift_eq, List.map_cons, List.map_nil, dense_f0, dense_f1, Method.wave, Bool.false_eq_true, if_false, LinearMap.comp_apply, lift_ket]
    have hA : ∀ (A : Wave →ₗ[ℂ] Wave) (U : Asg → Wave) (ψ : Wave), lift (fun x => A (U x)) ψ = A (lift U ψ) := fun A U ψ => by
      have : lift (fun x => A (U x)) = A ∘ₗ lift U := wave_ext fun x => by rw [lift_ket, LinearMap.comp_apply, lift_ket]
      rw [this]; rfl
    simp only [hA, lift_ket_id, LinearMap.id_apply, lift_ket]
  exact LinearMap.congr_fun this ψ

/-- the state on its way to the receiver -/
theorem dense_sent {n u v : ℕ} (hu : u < 2 ^ n) (hv : v < 2 ^ n) :
    lift ((denseSend n u v).wave false [List.range n, List.range' n n]) (lift (densePair.wave false [List.range n, List.range' n n]) (ket fun _ => false)) =
      (1 / (Real.sqrt 2 : ℂ)) ^ n • ∑ s ∈ range (2 ^ n), (-1 : ℂ) ^ dot n s v • ket (triAsg n s (s ^^^ u) 0) := by
  have hd : ∀ u, dot n 0 u = 0 := fun u => by simp [dot]
  have hz : (fun _ => false : Asg) = triAsg n 0 0 0 := by
    funext q
    rw [tri_at]
    simp
  rw [pair_lift, send_lift, hz, had_a n 0 0 0 (by positivity)]
  simp only [map_smul, map_sum, lift_ket, hd, pow_zero, one_smul, copy_ab, flip_a hu, Nat.zero_xor]
  congr 1
  rw [sum_congr rfl fun s hs => had_flip_had (Nat.xor_lt_two_pow (mem_range.mp hs) hu) hv s 0,
    ← sum_xor n u hu fun s => (-1 : ℂ) ^ dot n s v • ket (triAsg n s (s ^^^ u) 0)]
  refine sum_congr rfl fun s _ => ?_
  rw [Nat.xor_assoc, Nat.xor_self, Nat.xor_zero]

/-- the receiver finds `v` and `u` -/
theorem dense_wave {n u v : ℕ} (hu : u < 2 ^ n) (hv : v < 2 ^ n) :
    lift (denseRead.wave false [List.range n, List.range' n n]) (lift ((denseSend n u v).wave false [List.range n, List.range' n n])
      (lift (densePair.wave false [List.range n, List.range' n n]) (ket fun _ => false))) = ket (triAsg n v u 0) := by
  have hc : ∀ a b, dot n a b = dot n b a := fun a b => by unfold dot; simp only [Bool.and_comm]
  rw [dense_sent hu hv, read_lift, ← had_twice (List.range n) List.nodup_range (ket (triAsg n v u 0)), had_a n v u 0 hv]
  congr 1
  simp only [map_smul, map_sum, lift_ket, copy_ab]
  congr 1
  refine sum_congr rfl fun s _ => ?_
  rw [hc s v, show s ^^^ u ^^^ s = u by rw [Nat.xor_comm, ← Nat.xor_assoc, Nat.xor_self, Nat.zero_xor]]

end Verif
