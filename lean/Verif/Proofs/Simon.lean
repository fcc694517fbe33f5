import Verif.Spec.Simon
import Verif.Proofs.Oracle

/-! # Simon's program -/

namespace Verif
open Complex Finset

theorem wide_in {n m : ℕ} (hn : 0 < n) : ValidGroups [List.range n, List.range' n m] [[(0, none)]] := by
  refine ⟨?_, ?_, by simp, ?_⟩
  · simp [groupPos, selPos]; omega
  · simp only [List.flatMap_cons, List.flatMap_nil, groupPos, selPos, List.append_nil, List.getD_cons_zero, List.length_range]
    exact List.nodup_range.map fun a b h => by simpa using h
  · unfold HasPos
    simp [groupPos, selPos]

theorem wide_both {n m : ℕ} (hn : 0 < n) (hm : 0 < m) : ValidGroups [List.range n, List.range' n m] [[(0, none)], [(1, none)]] := by
  refine ⟨?_, ?_, by simp, ?_⟩
  · simp [groupPos, selPos]; omega
  · simp only [List.flatMap_cons, List.flatMap_nil, groupPos, selPos, List.append_nil]
    refine List.Nodup.append (List.nodup_range.map fun a b h => by simpa using h) (List.nodup_range.map fun a b h => by simpa using h) ?_
    simp [List.Disjoint]
  · unfold HasPos
    simp [groupPos, selPos]
    rintro a b (⟨h, rfl⟩ | ⟨h, rfl⟩) <;> simp_all

theorem simon_takes {n m : ℕ} (hn : 0 < n) (hm : 0 < m) {f : ℕ → ℕ} {o : Prog} (ho : ComputesWide n m f o) :
    (simonProg o).Takes false [List.range n, List.range' n m] := by
  have f0 : groupReg [List.range n, List.range' n m] [(0, none)] = List.range n := groupReg_all _ 0
  have f1 : groupReg [List.range n, List.range' n m] [(1, none)] = List.range' n m := groupReg_all _ 1
  have hr : List.range n ≠ [] := by simp; omega
  simp only [simonProg, Prog.Takes, Lines.Takes, List.map_cons, List.map_nil, f0, f1, Method.Takes]
  exact ⟨by simp; omega, wide_in hn, ⟨hr, by simp⟩, wide_both hn hm, ho.takes, wide_in hn, ⟨hr, by simp⟩, trivial⟩

theorem negMask_addVal {m : ℕ} (r : Reg) (hr : r.length = m) (w : ℕ) (x : Asg) : negMask r (2 ^ m - (w % 2 ^ m + 1)) x = addVal r w x := by
  funext q
  unfold negMask addVal
  by_cases hq : q ∈ r
  · have hi : r.idxOf q < m := hr ▸ List.idxOf_lt_length_iff.mpr hq
    rw [if_pos hq, Nat.testBit_two_pow_sub_succ (Nat.mod_lt _ (by positivity)), Nat.testBit_mod_two_pow]
    cases w.testBit (r.idxOf q) <;> simp [hq, hi]
  · rw [if_neg hq, if_neg fun h => hq h.1]

theorem addVal_low {n m : ℕ} (w : ℕ) (x : Asg) : valQ (List.range n) (addVal (List.range' n m) w x) = valQ (List.range n) x :=
  valQ_congr _ _ _ fun p hp => by
    unfold addVal
    rw [if_neg]
    simp only [List.mem_range, List.mem_range'_1] at hp ⊢
    omega

theorem wide_computes {n m : ℕ} (hn : 0 < n) (hm : 0 < m) (f : ℕ → ℕ) : ComputesWide n m f (wideOracle n m f) := by
  have f0 : groupReg [List.range n, List.range' n m] [(0, none)] = List.range n := groupReg_all _ 0
  have f1 : groupReg [List.range n, List.range' n m] [(1, none)] = List.range' n m := groupReg_all _ 1
  constructor
  · simp only [wideOracle, Prog.Takes]
    refine ⟨by simp; omega, ?_⟩
    generalize List.range (2 ^ n) = vs
    induction vs with
    | nil => simp only [wideLines, Lines.Takes]
    | cons v vs ih =>
      rw [wideLines]
      simp only [Lines.Takes, Prog.Takes, List.map_cons, List.map_nil, f1, Method.Takes]
      exact ⟨wide_both hn hm, by simp; omega, ih⟩
  · intro x
    have key : ∀ (vs : List ℕ), vs.Nodup → (∀ v ∈ vs, v < 2 ^ n) → ∀ x : Asg, (wideLines m f vs).wave false [List.range n, List.range' n m] x =
        if valQ (List.range n) x ∈ vs then ket (addVal (List.range' n m) (f (valQ (List.range n) x)) x) else ket x := by
      intro vs
      induction vs with
      | nil => intro _ _ x; simp [wideLines, Lines.wave]
      | cons v vs ih =>
        intro hnd hlt x
        obtain ⟨g1, g2⟩ := List.nodup_cons.mp hnd
        have hi := ih g2 fun w hw => hlt w (by simp [hw])
        have hvm : v % 2 ^ n = v := Nat.mod_eq_of_lt (hlt v (by simp))
        rw [wideLines]
        simp only [Lines.wave, lift_eq, f0, f1, List.map_cons, List.map_nil, Prog.wave, Method.wave, Holds, List.length_range, hvm]
        split
        · rename_i hv
          rw [negMask_addVal _ (by simp), lift_ket, hi, addVal_low, hv, if_neg g1, if_pos (by simp)]
        · rename_i hv
          rw [lift_ket, hi]
          simp [hv]
    simp only [wideOracle, Prog.wave]
    have := valQ_lt (List.range n) x
    rw [List.length_range] at this
    rw [key _ List.nodup_range (fun v hv => List.mem_range.mp hv) x, if_pos (List.mem_range.mpr this)]

/-- `v` in the input, `w` in the output -/
def pairAsg (n m v w : ℕ) : Asg := putVal (List.range n) v (addVal (List.range' n m) w fun _ => false)

theorem pair_low {n m v w : ℕ} (hv : v < 2 ^ n) : valQ (List.range n) (pairAsg n m v w) = v :=
  valQ_putVal _ List.nodup_range v (by rw [List.length_range]; exact hv) _

theorem pair_high {n m v w : ℕ} (hw : w < 2 ^ m) : valQ (List.range' n m) (pairAsg n m v w) = w := by
  have e : valQ (List.range' n m) (pairAsg n m v w) = valQ (List.range' n m) (putVal (List.range' n m) w fun _ => false) := by
    refine valQ_congr _ _ _ fun q hq => ?_
    unfold pairAsg putVal addVal
    have : ¬ q ∈ List.range n := by simp only [List.mem_range, List.mem_range'_1] at hq ⊢; omega
    rw [if_neg this, if_pos hq, if_pos hq, Bool.false_xor]
  rw [e, valQ_putVal _ List.nodup_range' w (by rw [List.length_range']; exact hw)]

theorem pair_hadamards (n m u w : ℕ) (hu : u < 2 ^ n) : eachW (Named.mat .h) (List.range n) (ket (pairAsg n m u w)) =
    (1 / (Real.sqrt 2 : ℂ)) ^ n • ∑ s ∈ range (2 ^ n), (-1 : ℂ) ^ dot n u s • ket (pairAsg n m s w) := by
  rw [hadamards _ List.nodup_range, List.length_range, pair_low hu]
  simp only [pairAsg, putVal_twice]

/-- the state before the measurement -/
theorem simon_wave {n m : ℕ} {f : ℕ → ℕ} {o : Prog} (ho : ComputesWide n m f o) :
    (simonProg o).wave false [List.range n, List.range' n m] (fun _ => false) =
      ∑ s ∈ range (2 ^ n), ∑ u ∈ range (2 ^ n), ((-1 : ℂ) ^ dot n u s / 2 ^ n) • ket (pairAsg n m s (f u)) := by
  have f0 : groupReg [List.range n, List.range' n m] [(0, none)] = List.range n := groupReg_all _ 0
  have f1 : groupReg [List.range n, List.range' n m] [(1, none)] = List.range' n m := groupReg_all _ 1
  have hc : (1 / (Real.sqrt 2 : ℂ)) ^ n * (1 / (Real.sqrt 2 : ℂ)) ^ n = 1 / 2 ^ n := by
    rw [← mul_pow, div_mul_div_comm, one_mul, ← ofReal_mul, Real.mul_self_sqrt (by norm_num), div_pow, one_pow]
    norm_num
  have hd : ∀ u, dot n 0 u = 0 := fun u => by simp [dot]
  have hz : (fun _ => false : Asg) = pairAsg n m 0 0 := by
    unfold pairAsg
    rw [putVal_zero_low]
    · funext q; simp [addVal]
    · intro q _; simp [addVal]
  have hor : ∀ u < 2 ^ n, o.wave false [List.range n, List.range' n m] (pairAsg n m u 0) = ket (pairAsg n m u (f u)) := by
    intro u hu
    rw [ho.wave, pair_low hu]
    congr 1
    funext q
    unfold pairAsg putVal addVal
    by_cases h1 : q ∈ List.range' n m
    · have : ¬ q ∈ List.range n := by simp only [List.mem_range, List.mem_range'_1] at h1 ⊢; omega
      simp only [h1, this, if_true, if_false, Nat.zero_testBit, Bool.false_xor]
    · simp only [h1, if_false]
  simp only [simonProg, Prog.wave, Lines.wave, lift_eq, List.map_cons, List.map_nil, f0, f1, Method.wave, Bool.false_eq_true, if_false]
  have hA : ∀ (A : Wave →ₗ[ℂ] Wave) (U : Asg → Wave) (ψ : Wave), lift (fun x => A (U x)) ψ = A (lift U ψ) := fun A U ψ => by
    rw [← LinearMap.comp_apply]
    congr 1
    exact wave_ext fun x => by rw [LinearMap.comp_apply, lift_ket, lift_ket]
  have hi : ∀ ψ, lift (fun x => ket x) ψ = ψ := fun ψ => by rw [show (fun x => ket x) = ket from rfl, lift_ket_id]; rfl
  simp only [hA, hi]
  rw [hz, pair_hadamards n m 0 0 (by positivity)]
  simp only [hd, pow_zero, one_smul, map_smul, map_sum]
  rw [sum_congr rfl fun u hu => by rw [lift_ket, hor u (mem_range.mp hu), pair_hadamards n m u _ (mem_range.mp hu)]]
  rw [smul_sum]
  simp only [smul_smul, smul_sum]
  rw [sum_comm]
  refine sum_congr rfl fun s _ => sum_congr rfl fun u _ => ?_
  congr 1
  rw [← mul_assoc, hc]
  ring

/-- the sign of a sum of two numbers without carry -/
theorem sign_xor (n u s v : ℕ) : (-1 : ℝ) ^ dot n (u ^^^ s) v = (-1 : ℝ) ^ dot n u v * (-1 : ℝ) ^ dot n s v := by
  unfold dot
  generalize List.range n = l
  induction l with
  | nil => simp
  | cons i l ih =>
    simp only [List.filter_cons, Nat.testBit_xor]
    cases u.testBit i <;> cases s.testBit i <;> cases v.testBit i <;> simp [pow_succ, Nat.testBit_xor] at ih ⊢ <;> linarith

end Verif
