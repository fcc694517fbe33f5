import Verif.Spec.Teleport
import Verif.Proofs.Simon
import Verif.Proofs.Grover
import Verif.Props.Main
import Verif.Props.StructInv
import Verif.Props.Struct

/-! # Teleportation of a register -/

namespace Verif
open Complex Finset

theorem tri_at (n u t w q : ℕ) : triAsg n u t w q =
    if q < n then u.testBit q else if q < n + n then t.testBit (q - n) else if q < n + n + n then w.testBit (q - (n + n)) else false := by
  unfold triAsg putVal
  simp only [List.mem_range, List.mem_range'_1]
  by_cases h1 : q < n
  · have : (List.range n).idxOf q = q := by
      have := (List.nodup_range (n := n)).idxOf_getElem q (by simpa using h1)
      simpa using this
    simp [h1, this]
  · rw [if_neg h1, if_neg h1]
    by_cases h2 : q < n + n
    · have : (List.range' n n).idxOf q = q - n := by
        have := (List.nodup_range' (s := n) (n := n)).idxOf_getElem (q - n) (by simp; omega)
        simpa [show n + (q - n) = q by omega] using this
      rw [if_pos (by omega), if_pos h2, this]
    · rw [if_neg (by omega), if_neg h2]
      by_cases h3 : q < n + n + n
      · have : (List.range' (n + n) n).idxOf q = q - (n + n) := by
          have := (List.nodup_range' (s := n + n) (n := n)).idxOf_getElem (q - (n + n)) (by simp; omega)
          simpa [show n + n + (q - (n + n)) = q by omega] using this
        rw [if_pos (by omega), if_pos h3, this]
      · rw [if_neg (by omega), if_neg h3]

theorem idx_range' (s n q : ℕ) (h : s ≤ q ∧ q < s + n) : (List.range' s n).idxOf q = q - s := by
  have := (List.nodup_range' (s := s) (n := n)).idxOf_getElem (q - s) (by simp; omega)
  simpa [show s + (q - s) = q by omega] using this

theorem xor_range' (s t n : ℕ) (x : Asg) (q : ℕ) :
    xorMap (List.range' s n) (List.range' t n) x q = if t ≤ q ∧ q < t + n then xor (x q) (x (s + (q - t))) else x q := by
  unfold xorMap
  simp only [List.mem_range'_1]
  split
  · rename_i h
    rw [idx_range' t n q h, List.getD_eq_getElem _ _ (by simp; omega)]
    simp
  · rfl

theorem copy_bc (n u t w : ℕ) : xorMap (List.range' n n) (List.range' (n + n) n) (triAsg n u t w) = triAsg n u t (w ^^^ t) := by
  funext q
  rw [xor_range']
  split
  · rename_i h
    rw [tri_at, tri_at, tri_at, if_neg (by omega), if_neg (by omega), if_pos h.2, if_neg (by omega), if_pos (by omega), if_neg (by omega), if_neg (by omega), if_pos h.2,
      Nat.testBit_xor, show n + (q - (n + n)) - n = q - (n + n) by omega]
  · rename_i h
    rw [tri_at, tri_at]
    split_ifs <;> first | rfl | omega

theorem copy_ab (n u t w : ℕ) : xorMap (List.range n) (List.range' n n) (triAsg n u t w) = triAsg n u (t ^^^ u) w := by
  funext q
  rw [List.range_eq_range', xor_range']
  split
  · rename_i h
    rw [tri_at, tri_at, tri_at, if_neg (by omega), if_pos h.2, if_pos (by omega), if_neg (by omega), if_pos h.2, Nat.testBit_xor, zero_add]
  · rename_i h
    rw [tri_at, tri_at]
    split_ifs <;> first | rfl | omega

theorem copy_ac (n u t w : ℕ) : xorMap (List.range n) (List.range' (n + n) n) (triAsg n u t w) = triAsg n u t (w ^^^ u) := by
  funext q
  rw [List.range_eq_range', xor_range']
  split
  · rename_i h
    rw [tri_at, tri_at, tri_at, if_neg (by omega), if_neg (by omega), if_pos h.2, if_pos (by omega), if_neg (by omega), if_neg (by omega), if_pos h.2,
      Nat.testBit_xor, zero_add]
  · rename_i h
    rw [tri_at, tri_at]
    split_ifs <;> first | rfl | omega

theorem valQ_range' (s n w : ℕ) (hw : w < 2 ^ n) (x : Asg) (h : ∀ i < n, x (s + i) = w.testBit i) : valQ (List.range' s n) x = w := by
  rw [valQ_congr _ _ (putVal (List.range' s n) w x) fun q hq => ?_, valQ_putVal _ List.nodup_range' w (by simpa using hw)]
  have hq' := List.mem_range'_1.mp hq
  unfold putVal
  rw [if_pos hq, idx_range' s n q hq', ← h (q - s) (by omega), show s + (q - s) = q by omega]

theorem tri_a {n u t w : ℕ} (hu : u < 2 ^ n) : valQ (List.range n) (triAsg n u t w) = u := by
  rw [List.range_eq_range']
  refine valQ_range' 0 n u hu _ fun i hi => ?_
  rw [tri_at, zero_add, if_pos hi]

theorem tri_b {n u t w : ℕ} (ht : t < 2 ^ n) : valQ (List.range' n n) (triAsg n u t w) = t := by
  refine valQ_range' n n t ht _ fun i hi => ?_
  rw [tri_at, if_neg (by omega), if_pos (by omega), Nat.add_sub_cancel_left]

theorem tri_c {n u t w : ℕ} (hw : w < 2 ^ n) : valQ (List.range' (n + n) n) (triAsg n u t w) = w := by
  refine valQ_range' (n + n) n w hw _ fun i hi => ?_
  rw [tri_at, if_neg (by omega), if_neg (by omega), if_pos (by omega), Nat.add_sub_cancel_left]

theorem put_range' (s n w : ℕ) (x : Asg) (q : ℕ) : putVal (List.range' s n) w x q = if s ≤ q ∧ q < s + n then w.testBit (q - s) else x q := by
  unfold putVal
  simp only [List.mem_range'_1]
  split
  · rename_i h
    rw [idx_range' s n q h]
  · rfl

theorem had_a (n u t w : ℕ) (hu : u < 2 ^ n) : eachW (Named.mat .h) (List.range n) (ket (triAsg n u t w)) =
    (1 / (Real.sqrt 2 : ℂ)) ^ n • ∑ s ∈ range (2 ^ n), (-1 : ℂ) ^ dot n u s • ket (triAsg n s t w) := by
  rw [hadamards _ List.nodup_range, List.length_range, tri_a hu]
  congr 1
  refine sum_congr rfl fun s _ => ?_
  congr 2
  funext q
  rw [List.range_eq_range', put_range', tri_at, tri_at, zero_add, Nat.sub_zero]
  split_ifs <;> first | rfl | omega

theorem had_b (n u t w : ℕ) (ht : t < 2 ^ n) : eachW (Named.mat .h) (List.range' n n) (ket (triAsg n u t w)) =
    (1 / (Real.sqrt 2 : ℂ)) ^ n • ∑ s ∈ range (2 ^ n), (-1 : ℂ) ^ dot n t s • ket (triAsg n u s w) := by
  rw [hadamards _ List.nodup_range', List.length_range', tri_b ht]
  congr 1
  refine sum_congr rfl fun s _ => ?_
  congr 2
  funext q
  rw [put_range', tri_at, tri_at]
  split_ifs <;> first | rfl | omega

theorem had_c (n u t w : ℕ) (hw : w < 2 ^ n) : eachW (Named.mat .h) (List.range' (n + n) n) (ket (triAsg n u t w)) =
    (1 / (Real.sqrt 2 : ℂ)) ^ n • ∑ s ∈ range (2 ^ n), (-1 : ℂ) ^ dot n w s • ket (triAsg n u t s) := by
  rw [hadamards _ List.nodup_range', List.length_range', tri_c hw]
  congr 1
  refine sum_congr rfl fun s _ => ?_
  congr 2
  funext q
  rw [put_range', tri_at, tri_at]
  split_ifs <;> first | rfl | omega

theorem had_twice (r : Reg) (hr : r.Nodup) (ψ : Wave) : eachW (Named.mat .h) r (eachW (Named.mat .h) r ψ) = ψ := by
  have e : (1 / (Real.sqrt 2 : ℂ)) * (1 / (Real.sqrt 2 : ℂ)) = 1 / 2 := by
    rw [div_mul_div_comm, one_mul, ← ofReal_mul, Real.mul_self_sqrt (by norm_num)]
    norm_num
  unfold Named.mat
  generalize (1 / (Real.sqrt 2 : ℂ)) = c at e ⊢
  rw [eachW_comp _ hr, show c * c + c * c = 1 by rw [e]; norm_num, show c * c + c * -c = 0 by ring, show c * c + -c * c = 0 by ring,
    show c * c + -c * -c = 1 by rw [neg_mul_neg, e]; norm_num, eachW_one]

theorem sum_xor {M : Type} [AddCommMonoid M] (n u : ℕ) (hu : u < 2 ^ n) (F : ℕ → M) : ∑ t ∈ range (2 ^ n), F (t ^^^ u) = ∑ t ∈ range (2 ^ n), F t := by
  refine sum_nbij' (fun t => t ^^^ u) (fun t => t ^^^ u) ?_ ?_ ?_ ?_ ?_
  · intro t ht; exact mem_range.mpr (Nat.xor_lt_two_pow (mem_range.mp ht) hu)
  · intro t ht; exact mem_range.mpr (Nat.xor_lt_two_pow (mem_range.mp ht) hu)
  · intro t _; simp [Nat.xor_assoc]
  · intro t _; simp [Nat.xor_assoc]
  · intro t _; rfl

theorem sign_xor_right (n u s v : ℕ) : (-1 : ℂ) ^ dot n v (u ^^^ s) = (-1 : ℂ) ^ dot n v u * (-1 : ℂ) ^ dot n v s := by
  have hc : ∀ a b, dot n a b = dot n b a := fun a b => by unfold dot; simp only [Bool.and_comm]
  have := sign_xor n u s v
  rw [hc v, hc v, hc v]
  exact_mod_cast congrArg (fun r : ℝ => (r : ℂ)) this

/-- a controlled Z on every qubit of two registers, made of H and `copy` -/
theorem had_copy_had (n s t u : ℕ) (hs : s < 2 ^ n) (hu : u < 2 ^ n) :
    eachW (Named.mat .h) (List.range' (n + n) n) (lift (fun x => ket (xorMap (List.range n) (List.range' (n + n) n) x))
      (eachW (Named.mat .h) (List.range' (n + n) n) (ket (triAsg n s t u)))) = (-1 : ℂ) ^ dot n u s • ket (triAsg n s t u) := by
  have h := had_twice (List.range' (n + n) n) List.nodup_range' (ket (triAsg n s t u))
  rw [had_c n s t u hu] at h ⊢
  rw [← h, ← map_smul]
  congr 1
  rw [map_smul, map_sum, smul_comm]
  congr 1
  simp only [map_smul, lift_ket, copy_ac]
  rw [← sum_xor n s hs fun w => (-1 : ℂ) ^ dot n u w • ket (triAsg n s t w), smul_sum]
  refine sum_congr rfl fun w _ => ?_
  rw [sign_xor_right, smul_smul, ← mul_assoc, mul_comm, ← mul_assoc, ← mul_pow, neg_one_mul, neg_neg, one_pow, one_mul]

theorem sqrt_pow (n : ℕ) : (1 / (Real.sqrt 2 : ℂ)) ^ n * (1 / (Real.sqrt 2 : ℂ)) ^ n = 1 / 2 ^ n := by
  rw [← mul_pow, div_mul_div_comm, one_mul, ← ofReal_mul, Real.mul_self_sqrt (by norm_num), div_pow, one_pow]
  norm_num

theorem low_tri {n : ℕ} {y : Asg} (hy : y ∈ Low n) : y = triAsg n (valQ (List.range n) y) 0 0 := by
  funext q
  rw [tri_at]
  split
  · rename_i h
    rw [testBit_valQ, dif_pos (by simpa using h), List.getElem_range]
  · rename_i h
    rw [hy q (by omega)]
    simp

theorem tele_groups {n : ℕ} (hn : 0 < n) (i : ℕ) (hi : i < 3) : ValidGroups [List.range n, List.range' n n, List.range' (n + n) n] [[(i, none)]] := by
  refine ⟨?_, ?_, by simp [hi], ?_⟩
  · interval_cases i <;> simp [groupPos, selPos] <;> omega
  · simp only [List.flatMap_cons, List.flatMap_nil, groupPos, selPos, List.append_nil]
    exact List.nodup_range.map fun a b h => by simpa using h
  · unfold HasPos
    interval_cases i <;> simp [groupPos, selPos]

theorem tele_pairs {n : ℕ} (hn : 0 < n) (i j : ℕ) (hi : i < 3) (hj : j < 3) (hij : i ≠ j) :
    ValidGroups [List.range n, List.range' n n, List.range' (n + n) n] [[(i, none)], [(j, none)]] := by
  refine ⟨?_, ?_, by simp [hi, hj], ?_⟩
  · interval_cases i <;> interval_cases j <;> simp [groupPos, selPos] <;> omega
  · simp only [List.flatMap_cons, List.flatMap_nil, groupPos, selPos, List.append_nil]
    refine List.Nodup.append (List.nodup_range.map fun a b h => by simpa using h) (List.nodup_range.map fun a b h => by simpa using h) ?_
    simp [List.Disjoint]
    intros
    omega
  · unfold HasPos
    interval_cases i <;> interval_cases j <;> simp [groupPos, selPos] <;> rintro a b (⟨h, rfl⟩ | ⟨h, rfl⟩) <;> simp_all

theorem tele_f0 (n : ℕ) : groupReg [List.range n, List.range' n n, List.range' (n + n) n] [(0, none)] = List.range n := groupReg_all _ 0
theorem tele_f1 (n : ℕ) : groupReg [List.range n, List.range' n n, List.range' (n + n) n] [(1, none)] = List.range' n n := groupReg_all _ 1
theorem tele_f2 (n : ℕ) : groupReg [List.range n, List.range' n n, List.range' (n + n) n] [(2, none)] = List.range' (n + n) n := groupReg_all _ 2

theorem prep_takes {n : ℕ} (hn : 0 < n) {p : Prog} (hp : p.Takes false [List.range n]) :
    (telePrep p).Takes false [List.range n, List.range' n n, List.range' (n + n) n] := by
  have h0 : List.range n ≠ [] := by simp; omega
  have h1 : ∀ s, List.range' s n ≠ [] := by intro s; simp; omega
  simp only [telePrep, Prog.Takes, Lines.Takes, List.map_cons, List.map_nil, tele_f0, tele_f1, tele_f2, Method.Takes]
  have g := tele_groups hn
  have g2 := tele_pairs hn
  exact ⟨by simp; omega, g 0 (by norm_num), hp, g 1 (by norm_num), ⟨h1 _, by simp⟩, g2 1 2 (by norm_num) (by norm_num) (by norm_num), ⟨h1 _, by simp⟩,
    g2 0 1 (by norm_num) (by norm_num) (by norm_num), ⟨h0, by simp⟩, g 0 (by norm_num), ⟨h0, by simp⟩, trivial⟩

theorem fix_takes {n : ℕ} (hn : 0 < n) {q : Prog} (hq : q.Takes false [List.range n]) :
    (teleFix q).Takes false [List.range n, List.range' n n, List.range' (n + n) n] := by
  have h0 : List.range n ≠ [] := by simp; omega
  have h1 : ∀ s, List.range' s n ≠ [] := by intro s; simp; omega
  have hq' : q.Takes false [List.range' (n + n) n] := q.takes_congr false [List.range n] _ (by simp) hq
  simp only [teleFix, Prog.Takes, Lines.Takes, List.map_cons, List.map_nil, tele_f0, tele_f1, tele_f2, Method.Takes]
  have g := tele_groups hn
  have g2 := tele_pairs hn
  exact ⟨by simp; omega, g2 1 2 (by norm_num) (by norm_num) (by norm_num), ⟨h1 _, by simp⟩,
    g 2 (by norm_num), ⟨h1 _, by simp⟩, g2 0 2 (by norm_num) (by norm_num) (by norm_num), ⟨h0, by simp⟩, g 2 (by norm_num), ⟨h1 _, by simp⟩, g 2 (by norm_num), hq', trivial⟩

/-- the steps of the sender after `p` -/
noncomputable def prepL (n : ℕ) : Wave →ₗ[ℂ] Wave :=
  eachW (Named.mat .h) (List.range n) ∘ₗ lift (fun x => ket (xorMap (List.range n) (List.range' n n) x)) ∘ₗ
    lift (fun x => ket (xorMap (List.range' n n) (List.range' (n + n) n) x)) ∘ₗ eachW (Named.mat .h) (List.range' n n)

/-- the corrections -/
noncomputable def fixL (n : ℕ) : Wave →ₗ[ℂ] Wave :=
  eachW (Named.mat .h) (List.range' (n + n) n) ∘ₗ lift (fun x => ket (xorMap (List.range n) (List.range' (n + n) n) x)) ∘ₗ
    eachW (Named.mat .h) (List.range' (n + n) n) ∘ₗ lift (fun x => ket (xorMap (List.range' n n) (List.range' (n + n) n) x))

theorem prep_lift (n : ℕ) (p : Prog) (ψ : Wave) : lift ((telePrep p).wave false [List.range n, List.range' n n, List.range' (n + n) n]) ψ =
    prepL n (lift (p.wave false [List.range n]) ψ) := by
  have : lift ((telePrep p).wave false [List.range n, List.range' n n, List.range' (n + n) n]) = prepL n ∘ₗ lift (p.wave false [List.range n]) := wave_ext fun x => by
    simp only [telePrep, Prog.wave, Lines.wave, lift_eq, List.map_cons, List.map_nil, tele_f0, tele_f1, tele_f2, Method.wave, Bool.false_eq_true, if_false, prepL,
      LinearMap.comp_apply, lift_ket]
    have hA : ∀ (A : Wave →ₗ[ℂ] Wave) (U : Asg → Wave) (ψ : Wave), lift (fun x => A (U x)) ψ = A (lift U ψ) := fun A U ψ => by
      have : lift (fun x => A (U x)) = A ∘ₗ lift U := wave_ext fun x => by rw [lift_ket, LinearMap.comp_apply, lift_ket]
      rw [this]; rfl
    have hL : ∀ (U V : Asg → Wave) (ψ : Wave), lift U (lift V ψ) = lift (fun x => lift U (V x)) ψ := fun U V ψ => (hA (lift U) V ψ).symm
    simp only [hA, hL, lift_ket_id, LinearMap.id_apply, lift_ket]
  exact LinearMap.congr_fun this ψ

theorem fix_lift (n : ℕ) (q : Prog) (ψ : Wave) : lift ((teleFix q).wave false [List.range n, List.range' n n, List.range' (n + n) n]) ψ =
    lift (q.wave false [List.range' (n + n) n]) (fixL n ψ) := by
  have : lift ((teleFix q).wave false [List.range n, List.range' n n, List.range' (n + n) n]) = lift (q.wave false [List.range' (n + n) n]) ∘ₗ fixL n := wave_ext fun x => by
    simp only [teleFix, Prog.wave, Lines.wave, lift_eq, List.map_cons, List.map_nil, tele_f0, tele_f1, tele_f2, Method.wave, Bool.false_eq_true, if_false, fixL,
      LinearMap.comp_apply, lift_ket]
    have hA : ∀ (A : Wave →ₗ[ℂ] Wave) (U : Asg → Wave) (ψ : Wave), lift (fun x => A (U x)) ψ = A (lift U ψ) := fun A U ψ => by
      have : lift (fun x => A (U x)) = A ∘ₗ lift U := wave_ext fun x => by rw [lift_ket, LinearMap.comp_apply, lift_ket]
      rw [this]; rfl
    simp only [hA, lift_ket_id, LinearMap.id_apply, lift_ket]
  exact LinearMap.congr_fun this ψ

theorem prep_ket (n u : ℕ) (hu : u < 2 ^ n) : prepL n (ket (triAsg n u 0 0)) =
    ((1 : ℂ) / 2 ^ n) • ∑ s ∈ range (2 ^ n), ∑ t ∈ range (2 ^ n), (-1 : ℂ) ^ dot n u s • ket (triAsg n s t (t ^^^ u)) := by
  have hd : ∀ u, dot n 0 u = 0 := fun u => by simp [dot]
  simp only [prepL, LinearMap.comp_apply]
  rw [had_b n u 0 0 (by positivity)]
  simp only [map_smul, map_sum, lift_ket, hd, pow_zero, one_smul, copy_bc, copy_ab, Nat.zero_xor]
  simp only [had_a n u _ _ hu]
  rw [← smul_sum, smul_smul, sqrt_pow, sum_comm]
  congr 1
  refine sum_congr rfl fun s _ => ?_
  rw [← sum_xor n u hu fun t => (-1 : ℂ) ^ dot n u s • ket (triAsg n s t (t ^^^ u))]
  refine sum_congr rfl fun t _ => ?_
  rw [Nat.xor_assoc, Nat.xor_self, Nat.xor_zero]

theorem fix_ket (n s t u : ℕ) (hs : s < 2 ^ n) (hu : u < 2 ^ n) : fixL n (ket (triAsg n s t (t ^^^ u))) = (-1 : ℂ) ^ dot n u s • ket (triAsg n s t u) := by
  have hx : t ^^^ u ^^^ t = u := by rw [Nat.xor_comm, ← Nat.xor_assoc, Nat.xor_self, Nat.zero_xor]
  simp only [fixL, LinearMap.comp_apply]
  rw [lift_ket, copy_bc, hx, had_copy_had n s t u hs hu]

theorem projL_apply (r : Reg) (m : ℕ) (ψ : Wave) : projL r m ψ = projW r m ψ := rfl

theorem projL_ket (r : Reg) (m : ℕ) (x : Asg) : projL r m (ket x) = if valQ r x = m then ket x else 0 := by
  rw [projL_apply]
  split
  · rename_i h
    exact projW_on (On.ket h)
  · rename_i h
    exact projW_off (On.ket (S := {y | valQ r y = valQ r x}) rfl) h

/-- a state of the first register, moved to the third, with `s` and `t` in the others -/
noncomputable def placeL (n s t : ℕ) : Wave →ₗ[ℂ] Wave := lift fun y => ket (triAsg n s t (valQ (List.range n) y))

theorem placeL_eq (n s t : ℕ) (ψ : Wave) : placeL n s t ψ = ψ.mapDomain fun y => triAsg n s t (valQ (List.range n) y) := by
  unfold placeL lift Finsupp.mapDomain
  rw [Finsupp.linearCombination_apply]
  refine Finsupp.sum_congr fun y _ => ?_
  unfold ket
  rw [Finsupp.smul_single, smul_eq_mul, mul_one]

theorem valQ_low_lt (n : ℕ) (y : Asg) : valQ (List.range n) y < 2 ^ n := by simpa using valQ_lt (List.range n) y

/-- what is left after the outcomes `s` and `t` of the sender and the corrections -/
theorem sent {n s t : ℕ} (hs : s < 2 ^ n) (ht : t < 2 ^ n) {ψ : Wave} (h : On (Low n) ψ) :
    fixL n (projW (List.range' n n) t (projW (List.range n) s (prepL n ψ))) = ((1 : ℂ) / 2 ^ n) • placeL n s t ψ := by
  refine h.agree (A := fixL n ∘ₗ projL (List.range' n n) t ∘ₗ projL (List.range n) s ∘ₗ prepL n) (B := ((1 : ℂ) / 2 ^ n) • placeL n s t) fun y hy => ?_
  have hu := valQ_low_lt n y
  simp only [LinearMap.comp_apply, LinearMap.smul_apply]
  unfold placeL
  rw [lift_ket]
  conv_lhs => rw [low_tri hy, prep_ket n _ hu]
  simp only [map_smul, map_sum, projL_ket]
  congr 1
  rw [sum_eq_single s, sum_eq_single t]
  · rw [tri_a hs, if_pos rfl, projL_ket, tri_b ht, if_pos rfl, fix_ket n s t _ hs hu, smul_smul, ← mul_pow, neg_one_mul, neg_neg, one_pow, one_smul]
  · intro t' ht' hne
    rw [tri_a hs, if_pos rfl, projL_ket, tri_b (mem_range.mp ht'), if_neg hne, map_zero, smul_zero]
  · exact fun h => absurd (mem_range.mpr ht) h
  · intro s' hs' hne
    refine sum_eq_zero fun t' _ => ?_
    rw [tri_a (mem_range.mp hs'), if_neg hne, map_zero, map_zero, smul_zero]
  · exact fun h => absurd (mem_range.mpr hs) h

/-- the same without measurements -/
theorem sent_all {n : ℕ} {ψ : Wave} (h : On (Low n) ψ) :
    fixL n (prepL n ψ) = ((1 : ℂ) / 2 ^ n) • ∑ s ∈ range (2 ^ n), ∑ t ∈ range (2 ^ n), placeL n s t ψ := by
  have e := h.agree (A := fixL n ∘ₗ prepL n) (B := ((1 : ℂ) / 2 ^ n) • ∑ s ∈ range (2 ^ n), ∑ t ∈ range (2 ^ n), placeL n s t) fun y hy => ?_
  · simpa only [LinearMap.comp_apply, LinearMap.smul_apply, LinearMap.sum_apply] using e
  have hu := valQ_low_lt n y
  simp only [LinearMap.comp_apply, LinearMap.smul_apply, LinearMap.sum_apply]
  unfold placeL
  simp only [lift_ket]
  conv_lhs => rw [low_tri hy, prep_ket n _ hu]
  simp only [map_smul, map_sum]
  congr 1
  refine sum_congr rfl fun s hs => sum_congr rfl fun t _ => ?_
  rw [fix_ket n s t _ (mem_range.mp hs) hu, smul_smul, ← mul_pow, neg_one_mul, neg_neg, one_pow, one_smul]

theorem place_emb (n s t w : ℕ) : embW (List.range' (n + n) n) (triAsg n s t w) = placeL n s t := wave_ext fun y => by
  unfold placeL
  rw [embW_ket, lift_ket]
  congr 1
  funext q
  unfold emb
  rw [tri_at, tri_at]
  simp only [List.mem_range'_1]
  by_cases h : n + n ≤ q ∧ q < n + n + n
  · rw [if_pos h, if_neg (by omega), if_neg (by omega), if_pos h.2, idx_range' _ _ _ h, testBit_valQ, dif_pos (by simp; omega), List.getElem_range]
  · rw [if_neg h]
    split_ifs <;> first | rfl | omega

/-- a program on the third register does there what it does on a register by itself -/
theorem place_prog {n : ℕ} (s t : ℕ) {q : Prog} (hq : q.Takes false [List.range n]) {ψ : Wave} (h : On (Low n) ψ) :
    lift (q.wave false [List.range' (n + n) n]) (placeL n s t ψ) = placeL n s t (lift (q.wave false [List.range n]) ψ) := by
  have hq' : q.Takes false [List.range' (n + n) n] := q.takes_congr false [List.range n] _ (by simp) hq
  refine h.agree (A := lift (q.wave false [List.range' (n + n) n]) ∘ₗ placeL n s t) (B := placeL n s t ∘ₗ lift (q.wave false [List.range n])) fun y hy => ?_
  have hu := valQ_low_lt n y
  simp only [LinearMap.comp_apply, lift_ket]
  rw [show placeL n s t (ket y) = ket (triAsg n s t (valQ (List.range n) y)) from lift_ket _ _, lift_ket,
    Props.C107_anywhere q false _ hq' (by simpa using List.nodup_range'), moveW_eq]
  have e1 : ([List.range' (n + n) n] : List Reg).flatten = List.range' (n + n) n := by simp
  have e2 : ranges 0 (([List.range' (n + n) n] : List Reg).map List.length) = [List.range n] := by simp [ranges, List.range_eq_range']
  have e3 : pull (List.range' (n + n) n) (triAsg n s t (valQ (List.range n) y)) = y := by
    funext i
    unfold pull
    split
    · rename_i hi
      rw [List.length_range'] at hi
      rw [List.getD_eq_getElem _ _ (by simpa using hi), List.getElem_range', one_mul, tri_at, if_neg (by omega), if_neg (by omega), if_pos (by omega), Nat.add_sub_cancel_left,
        testBit_valQ, dif_pos (by simpa using hi), List.getElem_range]
    · rename_i hi
      rw [List.length_range'] at hi
      rw [hy i (by omega)]
  rw [e1, e2, e3, place_emb]

theorem place_proj (n s t m : ℕ) (ψ : Wave) : projW (List.range' (n + n) n) m (placeL n s t ψ) = placeL n s t (projW (List.range n) m ψ) := by
  have : projL (List.range' (n + n) n) m ∘ₗ placeL n s t = placeL n s t ∘ₗ projL (List.range n) m := wave_ext fun y => by
    rw [LinearMap.comp_apply, LinearMap.comp_apply, projL_ket, show placeL n s t (ket y) = ket (triAsg n s t (valQ (List.range n) y)) from lift_ket _ _, projL_ket,
      tri_c (valQ_low_lt n y)]
    split
    · exact (lift_ket (fun y => ket (triAsg n s t (valQ (List.range n) y))) y).symm
    · exact (map_zero _).symm
  exact LinearMap.congr_fun this ψ

theorem normW_basis (r : Reg) (k : ℕ → Asg) (hk : ∀ u < 2 ^ r.length, valQ r (k u) = u) (c : ℕ → ℂ) :
    normW (∑ u ∈ range (2 ^ r.length), c u • ket (k u)) = ∑ u ∈ range (2 ^ r.length), normSq (c u) := by
  rw [← normW_proj_sum r]
  refine sum_congr rfl fun m hm => ?_
  rw [← projL_apply, map_sum, sum_eq_single m]
  · rw [map_smul, projL_ket, if_pos (hk m (mem_range.mp hm)), normW_smul, Props.normW_ket, mul_one]
  · intro u hu hne
    rw [map_smul, projL_ket, hk u (mem_range.mp hu), if_neg hne, smul_zero]
  · exact fun h => absurd hm h

theorem low_basis {n : ℕ} {ψ : Wave} (h : On (Low n) ψ) : ψ = ∑ u ∈ range (2 ^ n), ψ (triAsg n u 0 0) • ket (triAsg n u 0 0) := by
  refine h.agree (A := LinearMap.id) (B := ∑ u ∈ range (2 ^ n), (Finsupp.lapply (triAsg n u 0 0)).smulRight (ket (triAsg n u 0 0))) (fun y hy => ?_) |>.trans (by simp)
  have hu := valQ_low_lt n y
  simp only [LinearMap.id_apply, LinearMap.sum_apply, LinearMap.smulRight_apply, Finsupp.lapply_apply]
  rw [sum_eq_single (valQ (List.range n) y)]
  · rw [← low_tri hy]
    unfold ket
    rw [Finsupp.single_eq_same, one_smul]
  · intro u hu' hne
    unfold ket
    rw [Finsupp.single_eq_of_ne, zero_smul]
    rintro e
    exact hne (by rw [← e, tri_a (mem_range.mp hu')])
  · exact fun h => absurd (mem_range.mpr hu) h

theorem place_norm {n : ℕ} (s t : ℕ) {ψ : Wave} (h : On (Low n) ψ) : normW (placeL n s t ψ) = normW ψ := by
  have hl : (List.range n).length = n := List.length_range
  have hl' : (List.range' (n + n) n).length = n := List.length_range'
  have e1 := normW_basis (List.range n) (fun u => triAsg n u 0 0) (fun u hu => tri_a (by rwa [hl] at hu)) fun u => ψ (triAsg n u 0 0)
  have e2 := normW_basis (List.range' (n + n) n) (fun u => triAsg n s t u) (fun u hu => tri_c (by rwa [hl'] at hu)) fun u => ψ (triAsg n u 0 0)
  rw [hl, ← low_basis h] at e1
  rw [hl', ← e1] at e2
  rw [← e2]
  congr 1
  conv_lhs => rw [low_basis h]
  rw [map_sum]
  refine sum_congr rfl fun u hu => ?_
  rw [map_smul, show placeL n s t (ket (triAsg n u 0 0)) = ket (triAsg n s t (valQ (List.range n) (triAsg n u 0 0))) from lift_ket _ _, tri_a (mem_range.mp hu)]

theorem wave_low {n : ℕ} {p : Prog} (hp : p.Takes false [List.range n]) {ψ : Wave} (h : On (Low n) ψ) : On (Low n) (lift (p.wave false [List.range n]) ψ) := by
  refine h.map _ fun y hy => ?_
  rw [lift_ket]
  refine on_iff.mpr fun z hz i hi => ?_
  rw [(Props.C105_local p false [List.range n] hp (by simpa using List.nodup_range) y).1 z hz i (by simpa using hi)]
  exact hy i hi

end Verif
