import Verif.Spec.Oracle
import Verif.Proofs.Struct
import Verif.Proofs.Runs
import Verif.Proofs.Add2
import Verif.Proofs.Dagger

/-! # Hadamard gates on registers, and oracles -/

namespace Verif
open Complex Finset

theorem sum_range_double {M : Type} [AddCommMonoid M] (f : ℕ → M) (n : ℕ) : ∑ i ∈ range (2 * n), f i = ∑ i ∈ range n, (f (2 * i) + f (2 * i + 1)) := by
  induction n with
  | zero => rfl
  | succ n ih => rw [show 2 * (n + 1) = 2 * n + 1 + 1 from by ring, sum_range_succ, sum_range_succ, ih, sum_range_succ, add_assoc]

theorem dot_zero (u v : ℕ) : dot 0 u v = 0 := rfl

theorem testBit_bit_zero (b : Bool) (u : ℕ) : (b.toNat + 2 * u).testBit 0 = b := by
  rw [Nat.testBit_zero]
  cases b <;> simp

theorem testBit_bit_succ (b : Bool) (u i : ℕ) : (b.toNat + 2 * u).testBit (i + 1) = u.testBit i := by
  rw [Nat.testBit_succ]
  congr 1
  cases b <;> simp <;> omega

theorem dot_succ (n : ℕ) (b c : Bool) (u v : ℕ) : dot (n + 1) (b.toNat + 2 * u) (c.toNat + 2 * v) = (b && c).toNat + dot n u v := by
  unfold dot
  rw [List.range_succ_eq_map, List.filter_cons, testBit_bit_zero, testBit_bit_zero, List.filter_map]
  have e : ((fun i => (b.toNat + 2 * u).testBit i && (c.toNat + 2 * v).testBit i) ∘ Nat.succ) = fun i => u.testBit i && v.testBit i := by
    funext i
    simp only [Function.comp, Nat.succ_eq_add_one, testBit_bit_succ]
  rw [e]
  cases b <;> cases c <;> simp <;> omega

theorem putVal_cons_bit {q : ℕ} {r : Reg} (hq : q ∉ r) (b : Bool) (s : ℕ) (x : Asg) : putVal (q :: r) (b.toNat + 2 * s) x = putVal r s (setQ q b x) := by
  funext p
  unfold putVal
  by_cases h : p = q
  · subst h
    rw [if_pos (by simp), if_neg hq, List.idxOf_cons_self, testBit_bit_zero, setQ_eq]
  · by_cases hp : p ∈ r
    · rw [if_pos (by simp [hp]), if_pos hp, List.idxOf_cons_ne _ (Ne.symm h), testBit_bit_succ]
    · rw [if_neg (by simp [h, hp]), if_neg hp, setQ_ne h]

/-- H on every qubit of a register -/
theorem hadamards (r : Reg) (hn : r.Nodup) (x : Asg) : eachW (Named.mat .h) r (ket x) =
    (1 / (Real.sqrt 2 : ℂ)) ^ r.length • ∑ s ∈ range (2 ^ r.length), (-1 : ℂ) ^ dot r.length (valQ r x) s • ket (putVal r s x) := by
  induction r generalizing x with
  | nil =>
    have : putVal [] 0 x = x := by funext q; simp [putVal]
    simp [eachW, dot_zero, this]
  | cons q r ih =>
    obtain ⟨h1, h2⟩ := List.nodup_cons.mp hn
    have hv : ∀ b, valQ r (setQ q b x) = valQ r x := fun b => valQ_congr r _ _ fun p hp => setQ_ne (fun e : p = q => h1 (e ▸ hp)) b x
    have hs : ∀ (b : Bool) (s : ℕ), (-1 : ℂ) ^ dot (r.length + 1) ((x q).toNat + 2 * valQ r x) (b.toNat + 2 * s) • ket (putVal (q :: r) (b.toNat + 2 * s) x) =
        (-1 : ℂ) ^ (x q && b).toNat • (-1 : ℂ) ^ dot r.length (valQ r x) s • ket (putVal r s (setQ q b x)) := fun b s => by
      rw [dot_succ, putVal_cons_bit h1, pow_add, mul_smul]
    have e0 : ∀ s, 2 * s = Bool.toNat false + 2 * s := fun s => by simp
    have e1 : ∀ s, 2 * s + 1 = Bool.toNat true + 2 * s := fun s => by simp; ring
    have hd : ∑ s ∈ range (2 ^ (q :: r).length), (-1 : ℂ) ^ dot (q :: r).length (valQ (q :: r) x) s • ket (putVal (q :: r) s x) =
        (-1 : ℂ) ^ (x q && false).toNat • (∑ s ∈ range (2 ^ r.length), (-1 : ℂ) ^ dot r.length (valQ r x) s • ket (putVal r s (setQ q false x))) +
        (-1 : ℂ) ^ (x q && true).toNat • (∑ s ∈ range (2 ^ r.length), (-1 : ℂ) ^ dot r.length (valQ r x) s • ket (putVal r s (setQ q true x))) := by
      rw [List.length_cons, pow_succ 2, mul_comm (2 ^ r.length) 2, sum_range_double, sum_add_distrib, smul_sum, smul_sum]
      congr 1 <;> refine sum_congr rfl fun s _ => ?_
      · rw [e0 s, valQ, hs]
      · rw [e1 s, valQ, hs]
    rw [hd, eachW, LinearMap.comp_apply, gate1_ket, map_add, map_smul, map_smul, ih h2, ih h2, hv, hv, List.length_cons, smul_add, pow_succ]
    congr 1
    · rw [smul_smul, smul_smul]
      congr 1
      cases x q <;> simp [Named.mat, mat2] <;> ring
    · rw [smul_smul, smul_smul]
      congr 1
      cases x q <;> simp [Named.mat, mat2] <;> ring

/-- `(|0⟩ - |1⟩)/√2` on the output, `u` in the input -/
noncomputable def minusW (n u : ℕ) : Wave :=
  (1 / (Real.sqrt 2 : ℂ)) • (ket (putVal (List.range n) u fun _ => false) - ket (putVal (List.range n) u (setQ n true fun _ => false)))

theorem putVal_twice (r : Reg) (u v : ℕ) (x : Asg) : putVal r u (putVal r v x) = putVal r u x := by
  funext q
  unfold putVal
  split <;> rfl

theorem minus_hadamards (n u : ℕ) (hu : u < 2 ^ n) : eachW (Named.mat .h) (List.range n) (minusW n u) =
    (1 / (Real.sqrt 2 : ℂ)) ^ n • ∑ s ∈ range (2 ^ n), (-1 : ℂ) ^ dot n u s • minusW n s := by
  have hh : ∀ x, eachW (Named.mat .h) (List.range n) (ket (putVal (List.range n) u x)) =
      (1 / (Real.sqrt 2 : ℂ)) ^ n • ∑ s ∈ range (2 ^ n), (-1 : ℂ) ^ dot n u s • ket (putVal (List.range n) s x) := fun x => by
    rw [hadamards _ List.nodup_range, List.length_range, valQ_putVal _ List.nodup_range u (by rw [List.length_range]; exact hu)]
    simp only [putVal_twice]
  unfold minusW
  rw [map_smul, map_sub, hh, hh, ← smul_sub, ← sum_sub_distrib, smul_comm, smul_sum]
  congr 1
  refine sum_congr rfl fun s _ => ?_
  rw [← smul_sub, smul_comm]

theorem putVal_setQ_range (n u : ℕ) (b : Bool) (x : Asg) : putVal (List.range n) u (setQ n b x) = setQ n b (putVal (List.range n) u x) := by
  funext q
  unfold putVal
  by_cases h : q = n
  · subst h
    simp [setQ]
  · rw [setQ_ne h, setQ_ne h]

theorem minus_flip {n : ℕ} {f : ℕ → Bool} {U : Asg → Wave} (hU : ∀ x : Asg, U x = ket (setQ n (xor (x n) (f (valQ (List.range n) x))) x)) (u : ℕ)
    (hu : u < 2 ^ n) : lift U (minusW n u) = (-1 : ℂ) ^ (f u).toNat • minusW n u := by
  have hv : ∀ x, valQ (List.range n) (putVal (List.range n) u x) = u := fun x => valQ_putVal _ List.nodup_range u (by rw [List.length_range]; exact hu) x
  have h0 : putVal (List.range n) u (fun _ => false) n = false := by simp [putVal]
  have h1 : setQ n false (putVal (List.range n) u fun _ => false) = putVal (List.range n) u fun _ => false := setQ_self n _ _ h0
  unfold minusW
  have h2 : ∀ b c (y : Asg), setQ n b (setQ n c y) = setQ n b y := fun b c y => Function.update_idem _ _ _
  rw [map_smul, map_sub, lift_ket, lift_ket, hU, hU, hv, hv, putVal_setQ_range, setQ_eq, h0, h2]
  cases f u
  · simp [h1]
  · rw [show (false ^^ true) = true from rfl, show (true ^^ true) = false from rfl, h1, Bool.toNat_true, pow_one, ← neg_sub, smul_neg, neg_one_smul]

theorem minus_oracle {n : ℕ} {f : ℕ → Bool} {o : Prog} (ho : Computes n f o) (u : ℕ) (hu : u < 2 ^ n) :
    lift (o.wave false [List.range n, [n]]) (minusW n u) = (-1 : ℂ) ^ (f u).toNat • minusW n u := minus_flip ho.wave u hu

theorem putVal_zero_low (n : ℕ) (x : Asg) (h : ∀ q < n, x q = false) : putVal (List.range n) 0 x = x := by
  funext q
  unfold putVal
  split
  · rename_i hq
    rw [Nat.zero_testBit, h q (List.mem_range.mp hq)]
  · rfl

theorem minus_start (n : ℕ) : gateW [n] (Named.mat .h) (gateW [n] (Named.mat .x) (ket fun _ => false)) = minusW n 0 := by
  have s0 : setQ n false (fun _ => false) = fun _ => false := setQ_self n _ _ rfl
  have h2 : ∀ b c (y : Asg), setQ n b (setQ n c y) = setQ n b y := fun b c y => Function.update_idem _ _ _
  rw [gate1_ket, s0]
  rw [show Named.mat .x 0 (Bool.toNat false) = 0 from rfl, show Named.mat .x 1 (Bool.toNat false) = 1 from rfl, zero_smul, zero_add, one_smul, gate1_ket,
    setQ_eq, h2, h2, s0]
  unfold minusW
  rw [putVal_zero_low n _ fun q _ => rfl, putVal_zero_low n _ fun q hq => by rw [setQ_ne (by omega)]]
  rw [smul_sub, sub_eq_add_neg, ← neg_smul]
  rfl

/-- the state before the measurement -/
theorem query_wave {n : ℕ} {f : ℕ → Bool} {o : Prog} (ho : Computes n f o) :
    (queryProg o).wave false [List.range n, [n]] (fun _ => false) =
      ∑ s ∈ range (2 ^ n), ((∑ u ∈ range (2 ^ n), (-1 : ℂ) ^ ((f u).toNat + dot n u s)) / 2 ^ n) • minusW n s := by
  have f0 : groupReg [List.range n, [n]] [(0, none)] = List.range n := groupReg_all _ 0
  have f1 : groupReg [List.range n, [n]] [(1, none)] = [n] := groupReg_all _ 1
  have hl : ∀ (g : Named) (r : Reg), lift (fun x => eachW g.mat r (ket x)) = eachW g.mat r := fun g r => wave_ext fun x => lift_ket _ _
  have hc : (1 / (Real.sqrt 2 : ℂ)) ^ n * (1 / (Real.sqrt 2 : ℂ)) ^ n = 1 / 2 ^ n := by
    rw [← mul_pow, div_mul_div_comm, one_mul, ← ofReal_mul, Real.mul_self_sqrt (by norm_num), div_pow, one_pow]
    norm_num
  have hd : ∀ u, dot n 0 u = 0 := fun u => by simp [dot]
  simp only [queryProg, Prog.wave, Lines.wave, lift_eq, List.map_cons, List.map_nil, f0, f1, Method.wave, Bool.false_eq_true, if_false]
  have hA : ∀ (A : Wave →ₗ[ℂ] Wave) (U : Asg → Wave) (ψ : Wave), lift (fun x => A (U x)) ψ = A (lift U ψ) := fun A U ψ => by
    rw [← LinearMap.comp_apply]
    congr 1
    exact wave_ext fun x => by rw [LinearMap.comp_apply, lift_ket, lift_ket]
  have hi : ∀ ψ, lift (fun x => ket x) ψ = ψ := fun ψ => by rw [show (fun x => ket x) = ket from rfl, lift_ket_id]; rfl
  simp only [hA, hi, eachW_single]
  rw [minus_start, minus_hadamards n 0 (by positivity)]
  simp only [hd, pow_zero, one_smul, map_smul, map_sum]
  rw [sum_congr rfl fun u hu => by rw [minus_oracle ho u (mem_range.mp hu), map_smul, minus_hadamards n u (mem_range.mp hu), smul_sum, smul_sum], sum_comm, smul_sum]
  refine sum_congr rfl fun s _ => ?_
  rw [div_eq_mul_one_div (∑ u ∈ range (2 ^ n), _) ((2 : ℂ) ^ n), ← hc, sum_mul, sum_smul, smul_sum]
  refine sum_congr rfl fun u _ => ?_
  rw [smul_smul, smul_smul, smul_smul]
  congr 1
  rw [pow_add]
  ring

theorem minus_on (n s : ℕ) (hs : s < 2 ^ n) : On {y | valQ (List.range n) y = s} (minusW n s) := by
  have hv : ∀ x, valQ (List.range n) (putVal (List.range n) s x) = s := fun x => valQ_putVal _ List.nodup_range s (by rw [List.length_range]; exact hs) x
  unfold minusW
  rw [sub_eq_add_neg, ← neg_one_smul ℂ (ket _)]
  exact ((On.ket (hv _)).add ((On.ket (hv _)).smul _)).smul _

theorem minus_norm (n s : ℕ) : normW (minusW n s) = 1 := by
  have hne : putVal (List.range n) s (fun _ => false) ≠ putVal (List.range n) s (setQ n true fun _ => false) := fun h => by
    have := congrFun h n
    simp [putVal, setQ] at this
  have h1 : ∀ x, normW (ket x) = 1 := fun x => by simp [normW, ket, Finsupp.sum_single_index]
  unfold minusW
  rw [normW_smul, sub_eq_add_neg, ← neg_one_smul ℂ (ket (putVal (List.range n) s (setQ n true fun _ => false))), normW_add_ket, h1]
  rw [show ket (putVal (List.range n) s fun _ => false) (putVal (List.range n) s (setQ n true fun _ => false)) = 0 from Finsupp.single_eq_of_ne hne.symm]
  rw [← ofReal_one, ← ofReal_div, normSq_ofReal, div_mul_div_comm, one_mul, Real.mul_self_sqrt (by norm_num)]
  simp
  norm_num

/-! ## oracles -/

theorem valid_in {n : ℕ} (hn : 0 < n) : ValidGroups [List.range n, [n]] [[(0, none)]] := by
  refine ⟨?_, ?_, by simp, ?_⟩
  · simp [groupPos, selPos]; omega
  · simp only [List.flatMap_cons, List.flatMap_nil, groupPos, selPos, List.append_nil, List.getD_cons_zero, List.length_range]
    exact List.nodup_range.map fun a b h => by simpa using h
  · unfold HasPos
    simp [groupPos, selPos]

theorem valid_out {n : ℕ} : ValidGroups [List.range n, [n]] [[(1, none)]] := by
  refine ⟨by simp [groupPos, selPos], by simp [groupPos, selPos], by simp, ?_⟩
  unfold HasPos
  simp [groupPos, selPos]

theorem valid_both {n : ℕ} (hn : 0 < n) : ValidGroups [List.range n, [n]] [[(0, none)], [(1, none)]] := by
  refine ⟨?_, ?_, by simp, ?_⟩
  · simp [groupPos, selPos]; omega
  · simp only [List.flatMap_cons, List.flatMap_nil, groupPos, selPos, List.append_nil, List.getD_cons_zero, List.length_range]
    refine List.Nodup.append (List.nodup_range.map fun a b h => by simpa using h) (by simp) ?_
    simp
  · unfold HasPos
    simp [groupPos, selPos]
    rintro a b (⟨h, rfl⟩ | ⟨rfl, rfl⟩) <;> simp_all

theorem valid_one {n i : ℕ} (hi : i < n) : ValidGroups [List.range n, [n]] [[(0, some [i])], [(1, none)]] := by
  refine ⟨by simp [groupPos, selPos], by simp [groupPos, selPos], by simp, ?_⟩
  unfold HasPos
  simp [groupPos, selPos, hi]

theorem query_takes {n : ℕ} (hn : 0 < n) {f : ℕ → Bool} {o : Prog} (ho : Computes n f o) : (queryProg o).Takes false [List.range n, [n]] := by
  have f0 : groupReg [List.range n, [n]] [(0, none)] = List.range n := groupReg_all _ 0
  have f1 : groupReg [List.range n, [n]] [(1, none)] = [n] := groupReg_all _ 1
  have hr : List.range n ≠ [] := by simp; omega
  simp only [queryProg, Prog.Takes, Lines.Takes, List.map_cons, List.map_nil, f0, f1, Method.Takes]
  exact ⟨by simp; omega, valid_out, by simp, valid_out, by simp, valid_in hn, ⟨hr, by simp⟩, valid_both hn, ho.takes, valid_in hn, ⟨hr, by simp⟩, trivial⟩

theorem flip_wave (n : ℕ) (x : Asg) : gateW [n] (Named.mat .x) (ket x) = ket (setQ n (!x n) x) := by
  rw [gate1_ket]
  cases h : x n <;> simp [Named.mat, mat2]

theorem table_computes {n : ℕ} (hn : 0 < n) (f : ℕ → Bool) : Computes n f (tableOracle n f) := by
  have f0 : groupReg [List.range n, [n]] [(0, none)] = List.range n := groupReg_all _ 0
  have f1 : groupReg [List.range n, [n]] [(1, none)] = [n] := groupReg_all _ 1
  constructor
  · simp only [tableOracle, Prog.Takes]
    refine ⟨by simp; omega, ?_⟩
    generalize List.range (2 ^ n) = vs
    induction vs with
    | nil => simp only [tableLines, Lines.Takes]
    | cons v vs ih =>
      rw [tableLines]
      split
      · simp only [Lines.Takes, Prog.Takes, List.map_cons, List.map_nil, f1, Method.Takes]
        exact ⟨valid_both hn, by simp, ih⟩
      · exact ih
  · intro x
    have key : ∀ (vs : List ℕ), vs.Nodup → (∀ v ∈ vs, v < 2 ^ n) → ∀ x : Asg, (tableLines f vs).wave false [List.range n, [n]] x =
        ket (setQ n (xor (x n) (decide (valQ (List.range n) x ∈ vs) && f (valQ (List.range n) x))) x) := by
      intro vs
      induction vs with
      | nil => intro _ _ x; simp [tableLines, Lines.wave, setQ_self]
      | cons v vs ih =>
        intro hnd hlt x
        obtain ⟨g1, g2⟩ := List.nodup_cons.mp hnd
        have hi := ih g2 fun w hw => hlt w (by simp [hw])
        have hval : ∀ b, valQ (List.range n) (setQ n b x) = valQ (List.range n) x := fun b =>
          valQ_congr _ _ _ fun p hp => setQ_ne (by have := List.mem_range.mp hp; omega) b x
        have h2 : ∀ b c (y : Asg), setQ n b (setQ n c y) = setQ n b y := fun b c y => Function.update_idem _ _ _
        have hvm : v % 2 ^ n = v := Nat.mod_eq_of_lt (hlt v (by simp))
        rw [tableLines]
        split
        · rename_i hf
          simp only [Lines.wave, lift_eq, f0, f1, List.map_cons, List.map_nil, Prog.wave, Method.wave, if_true, eachW_single, Holds, List.length_range, hvm]
          split
          · rename_i hv
            rw [show Named.condMat .x = Named.mat .x from rfl, flip_wave, lift_ket, hi, hval, hv]
            simp [g1, hf, setQ_eq, h2]
          · rename_i hv
            rw [lift_ket, hi]
            simp [hv]
        · rename_i hf
          rw [hi]
          by_cases hv : valQ (List.range n) x = v
          · simp [hv, hf]
          · simp [hv]
    simp only [tableOracle, Prog.wave]
    rw [key _ List.nodup_range (fun v hv => List.mem_range.mp hv) x]
    have := valQ_lt (List.range n) x
    rw [List.length_range] at this
    simp [this]

theorem odd_filter_cons (p : ℕ → Bool) (i : ℕ) (is : List ℕ) :
    decide (((i :: is).filter p).length % 2 = 1) = xor (p i) (decide ((is.filter p).length % 2 = 1)) := by
  rw [List.filter_cons]
  cases p i
  · simp
  · simp only [if_true, List.length_cons]
    rcases Nat.mod_two_eq_zero_or_one (is.filter p).length with h | h <;> simp [Nat.add_mod, h]

theorem parity_computes {n : ℕ} (hn : 0 < n) (a : ℕ) : Computes n (fun u => decide (dot n u a % 2 = 1)) (parityOracle n a) := by
  have f0 : ∀ i < n, groupReg [List.range n, [n]] [(0, some [i])] = [i] := fun i hi => by
    rw [groupReg_one]
    simp [at', hi]
  have f1 : groupReg [List.range n, [n]] [(1, none)] = [n] := groupReg_all _ 1
  constructor
  · simp only [parityOracle, Prog.Takes]
    refine ⟨by simp; omega, ?_⟩
    have : ∀ is : List ℕ, (∀ i ∈ is, i < n) → (parityLines a is).Takes false [List.range n, [n]] := by
      intro is
      induction is with
      | nil => intro _; simp only [parityLines, Lines.Takes]
      | cons i is ih =>
        intro hi
        rw [parityLines]
        split
        · simp only [Lines.Takes, Prog.Takes, List.map_cons, List.map_nil, f1, f0 i (hi i (by simp)), Method.Takes]
          exact ⟨valid_one (hi i (by simp)), by simp, ih fun j hj => hi j (by simp [hj])⟩
        · exact ih fun j hj => hi j (by simp [hj])
    exact this _ fun i hi => List.mem_range.mp hi
  · intro x
    have h2 : ∀ b c (y : Asg), setQ n b (setQ n c y) = setQ n b y := fun b c y => Function.update_idem _ _ _
    have key : ∀ (is : List ℕ), (∀ i ∈ is, i < n) → ∀ x : Asg, (parityLines a is).wave false [List.range n, [n]] x =
        ket (setQ n (xor (x n) (decide ((is.filter fun i => x i && a.testBit i).length % 2 = 1))) x) := by
      intro is
      induction is with
      | nil => intro _ x; simp [parityLines, Lines.wave, setQ_self]
      | cons i is ih =>
        intro hlt x
        have hi := ih fun w hw => hlt w (by simp [hw])
        have hin : i ≠ n := by have := hlt i (by simp); omega
        rw [parityLines, odd_filter_cons]
        split
        · rename_i ha
          simp only [Lines.wave, lift_eq, f0 i (hlt i (by simp)), f1, List.map_cons, List.map_nil, Prog.wave, Method.wave, flipIf_one, lift_ket]
          by_cases hx : x i = true
          · have hfl : flipAll [n] x = setQ n (!x n) x := by
              funext p
              by_cases hp : p = n
              · subst hp; simp [flipAll, setQ]
              · simp [flipAll, setQ, hp]
            have hf : (is.filter fun j => setQ n (!x n) x j && a.testBit j) = is.filter fun j => x j && a.testBit j :=
              List.filter_congr fun j hj => by rw [setQ_ne (by have := hlt j (by simp [hj]); omega)]
            rw [if_pos hx, hfl, hi, h2, hf, setQ_eq, hx, ha]
            simp
          · rw [if_neg hx, hi]
            simp [hx]
        · rename_i ha
          rw [hi]
          simp [ha]
    simp only [parityOracle, Prog.wave]
    rw [key _ (fun v hv => List.mem_range.mp hv) x]
    congr 3
    have : ∀ i ∈ List.range n, (x i && a.testBit i) = ((valQ (List.range n) x).testBit i && a.testBit i) := fun i hi => by
      rw [testBit_valQ, dif_pos (by rw [List.length_range]; exact List.mem_range.mp hi), List.getElem_range]
    unfold dot
    rw [List.filter_congr this]

end Verif
