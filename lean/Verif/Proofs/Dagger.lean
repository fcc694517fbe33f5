import Verif.Proofs.StructEqui
import Verif.Proofs.Equiv
import Verif.Proofs.AddMod

/-! # Inverse circuits are adjoint circuits -/

namespace Verif
open Classical Complex

theorem normW_add_ket (φ : Wave) (t : ℂ) (y : Asg) : normW (φ + t • ket y) = normW φ + normSq t + 2 * ((starRingEnd ℂ) (φ y) * t).re := by
  have h : ∀ ψ : Wave, normW ψ = normSq (ψ y) + normW (ψ.erase y) := fun ψ => (Finsupp.add_sum_erase' ψ y (fun _ c => normSq c) fun _ => by simp).symm
  have e1 : (φ + t • ket y) y = φ y + t := by simp [ket]
  have e2 : (φ + t • ket y).erase y = φ.erase y := by
    ext x
    by_cases hx : x = y
    · subst hx; simp
    · rw [Finsupp.erase_ne hx, Finsupp.erase_ne hx]
      simp [ket, Ne.symm hx]
  rw [h, h φ, e1, e2, Complex.normSq_add]
  have : (φ y * (starRingEnd ℂ) t).re = ((starRingEnd ℂ) (φ y) * t).re := by simp [Complex.mul_re]
  rw [this]
  ring

/-- the inverse of a map that preserves lengths is its adjoint -/
theorem adjoint_of {S : Set Asg} {A B : Wave →ₗ[ℂ] Wave} (hA : ∀ ψ, On S ψ → normW (A ψ) = normW ψ) {z y : Asg} (hAB : A (B (ket z)) = ket z)
    (hB : On S (B (ket z))) (hy : y ∈ S) : B (ket z) y = (starRingEnd ℂ) (A (ket y) z) := by
  have hz : normW (ket z) = 1 := by simp [normW, ket, Finsupp.sum_single_index]
  have h1 : normW (B (ket z)) = 1 := by rw [← hA _ hB, hAB, hz]
  have key : ∀ t : ℂ, ((starRingEnd ℂ) (B (ket z) y) * t).re = (A (ket y) z * t).re := fun t => by
    have e : normW (B (ket z) + t • ket y) = normW (ket z + t • A (ket y)) := by
      rw [← hA _ (Submodule.add_mem _ hB (Submodule.smul_mem _ t (On.ket hy))), map_add, map_smul, hAB]
    have hAy : normW (A (ket y)) = 1 := by rw [hA _ (On.ket hy)]; simp [normW, ket, Finsupp.sum_single_index]
    rw [normW_add_ket, h1] at e
    by_cases ht : t = 0
    · simp [ht]
    have e2 : normW (ket z + t • A (ket y)) = normSq t * normW (A (ket y) + t⁻¹ • ket z) := by
      rw [← normW_smul, smul_add, smul_smul, mul_inv_cancel₀ ht, one_smul, add_comm]
    rw [e2, normW_add_ket, hAy] at e
    have hn : normSq t ≠ 0 := fun h => ht (normSq_eq_zero.mp h)
    rw [normSq_inv] at e
    have e3 : normSq t * ((starRingEnd ℂ) (A (ket y) z) * t⁻¹).re = (A (ket y) z * t).re := by
      rw [Complex.inv_def, ← mul_assoc, Complex.re_mul_ofReal]
      field_simp
      simp [Complex.mul_re]
    have e4 : normSq t * (1 + (normSq t)⁻¹ + 2 * ((starRingEnd ℂ) (A (ket y) z) * t⁻¹).re) =
        normSq t + 1 + 2 * (normSq t * ((starRingEnd ℂ) (A (ket y) z) * t⁻¹).re) := by field_simp
    rw [e4, e3] at e
    linarith
  have k1 := key 1
  have k2 := key I
  apply Complex.ext
  · simpa using k1
  · simp [Complex.mul_re] at k2
    simp
    linarith

theorem low_write {n : ℕ} {z : Asg} (hz : z ∈ Low n) (v : ℕ) : writeQ (List.range n) v z ∈ Low n := fun i hi => by
  rw [writeQ_not_mem _ _ _ _ (by simpa using hi)]
  exact hz i hi

theorem low_eq_write {n : ℕ} {y z : Asg} (hy : y ∈ Low n) (hz : z ∈ Low n) : writeQ (List.range n) (readQ (List.range n) y) z = y := by
  have h := writeQ_readQ (List.range n) y
  funext q
  by_cases hq : q ∈ List.range n
  · have := congrFun h q
    unfold writeQ at this ⊢
    rw [if_pos hq] at this ⊢
    exact this
  · rw [writeQ_not_mem _ _ _ _ hq, hy q (by simpa using hq), hz q (by simpa using hq)]

theorem dagger_on {n : ℕ} (U : Asg → Wave) {z : Asg} (hz : z ∈ Low n) : On (Low n) (daggerW (List.range n) U z) :=
  Submodule.sum_mem _ fun v _ => Submodule.smul_mem _ _ (On.ket (low_write hz v))

theorem dagger_apply {n : ℕ} (U : Asg → Wave) {z y : Asg} (hz : z ∈ Low n) (hy : y ∈ Low n) : daggerW (List.range n) U z y = (starRingEnd ℂ) (U y z) := by
  unfold daggerW
  have hlt : readQ (List.range n) y < 2 ^ n := by simpa using readQ_lt (List.range n) y
  rw [List.length_range, Finsupp.finset_sum_apply, Finset.sum_eq_single (readQ (List.range n) y)]
  · rw [low_eq_write hy hz]
    simp [ket]
  · intro v hv hne
    have : writeQ (List.range n) v z ≠ y := fun e => hne (by
      rw [← e, readQ_writeQ _ List.nodup_range v (by simpa using Finset.mem_range.mp hv)])
    simp [ket, this]
  · intro h
    exact absurd (Finset.mem_range.mpr hlt) h

/-- the circuit that undoes a function does the adjoint of it -/
theorem dagger_of {n : ℕ} {A B : Wave →ₗ[ℂ] Wave} {U : Asg → Wave} (hA : ∀ ψ, On (Low n) ψ → normW (A ψ) = normW ψ) (hAB : ∀ ψ, A (B ψ) = ψ)
    (hB : ∀ z ∈ Low n, On (Low n) (B (ket z))) (hU : ∀ z ∈ Low n, A (ket z) = U z) {z : Asg} (hz : z ∈ Low n) :
    daggerW (List.range n) U z = B (ket z) := by
  ext y
  by_cases hy : y ∈ Low n
  · rw [dagger_apply U hz hy, adjoint_of hA (hAB _) (hB z hz) hy, hU y hy]
  · have h1 := on_iff.mp (dagger_on U hz) y
    have h2 := on_iff.mp (hB z hz) y
    rw [Finsupp.notMem_support_iff.mp fun h => hy (h1 h), Finsupp.notMem_support_iff.mp fun h => hy (h2 h)]

theorem low_mono {n m : ℕ} (h : n ≤ m) : Low n ⊆ Low m := fun _ hz i hi => hz i (by omega)

/-- ... and the adjoint undoes it -/
theorem dagger_spec {α : Type} {m : M LocalBuilder α} {n : ℕ} {a : α} {L : List ℕ} {U : Asg → Wave}
    (hf : Does rotAngle m ⟨[], n, [], 0⟩ a L U) (hk : ∀ z ∈ Low n, On (Low n) (U z)) {z : Asg} (hz : z ∈ Low n) :
    On (Low n) (daggerW (List.range n) U z) ∧ lift U (daggerW (List.range n) U z) = ket z ∧ lift (daggerW (List.range n) U) (U z) = ket z := by
  obtain ⟨b, f1, -, -, f4⟩ := hf
  obtain ⟨seg, g1, g2, g3⟩ := f4.seg
  obtain ⟨p, p1, p2, p3, p4, -, p6⟩ := invertSub_ok rotAngle_neg' b.n seg fun e he =>
    ⟨(g2 e he).1.1, (g2 e he).1.2.1, (g2 e he).1.2.2.choose, (g2 e he).1.2.2.choose_spec.1⟩
  have p6' := p6 fun e he => (g2 e he).2
  have hU : ∀ z ∈ Low n, runW rotAngle seg (ket z) = U z := fun z hz => (g3 z ((fresh_clean _ z).mpr hz)).1
  have hon := inverse_on (Low n) (low_finite _) (runW rotAngle seg) (runW rotAngle p) (fun ψ => (p6' ψ).1) fun z hz => by
    rw [hU z hz]
    exact hk z hz
  have hd : ∀ z ∈ Low n, daggerW (List.range n) U z = runW rotAngle p (ket z) := fun z hz =>
    dagger_of (A := runW rotAngle seg) (fun ψ hψ => normW_run seg g2 (hψ.mono (low_mono f4.n_le))) (fun ψ => (p6' ψ).2) hon hU hz
  refine ⟨dagger_on U hz, ?_, ?_⟩
  · rw [hd z hz, (hon z hz).agree (A := lift U) (B := runW rotAngle seg) fun y hy => by rw [lift_ket, hU y hy]]
    exact (p6' _).2
  · rw [(hk z hz).agree (A := lift (daggerW (List.range n) U)) (B := runW rotAngle p) fun y hy => by rw [lift_ket, hd y hy], ← hU z hz]
    exact (p6' _).1

/-- the adjoint of a moved action is the moved adjoint -/
theorem dagger_move {R : Reg} (hn : R.Nodup) {U : Asg → Wave} (hk : ∀ z ∈ Low R.length, On (Low R.length) (U z)) (x : Asg) :
    daggerW R (moveW R U) x = moveW R (daggerW (List.range R.length) U) x := by
  have hpull : ∀ v, pull R (writeQ R v x) = writeQ (List.range R.length) v (pull R x) := fun v => by
    funext i
    unfold pull writeQ
    by_cases hi : i < R.length
    · have h1 : i ∈ List.range R.length := List.mem_range.mpr hi
      have h2 := List.idxOf_lt_length_iff.mpr h1
      have h3 : (List.range R.length).idxOf i = i := by
        have := List.getElem_idxOf h2
        rwa [List.getElem_range] at this
      rw [if_pos hi, if_pos (getD_mem hi), if_pos h1, List.length_range, h3, List.getD_eq_getElem _ _ hi, hn.idxOf_getElem]
    · rw [if_neg hi, if_neg (by simpa using hi)]
      exact (if_neg hi).symm
  have hemb : ∀ v y, emb R (writeQ R v x) y = emb R x y := fun v y => by
    funext q
    unfold emb
    by_cases hq : q ∈ R
    · rw [if_pos hq, if_pos hq]
    · rw [if_neg hq, if_neg hq, writeQ_not_mem _ _ _ _ hq]
  have hw : ∀ v, emb R x (writeQ (List.range R.length) v (pull R x)) = writeQ R v x := fun v => by rw [← hpull, ← hemb v, emb_pull]
  have hamp : ∀ ψ, On (Low R.length) ψ → embW R x ψ x = ψ (pull R x) := fun ψ hψ => by
    rw [← Finsupp.sum_single ψ, Finsupp.sum, map_sum, Finsupp.finset_sum_apply, Finsupp.finset_sum_apply]
    refine Finset.sum_congr rfl fun y hy => ?_
    have hl := on_iff.mp hψ y hy
    rw [show (Finsupp.single y (ψ y) : Wave) = ψ y • ket y by simp [ket], map_smul, embW_ket, Finsupp.smul_apply, Finsupp.smul_apply]
    congr 1
    unfold ket
    rw [Finsupp.single_apply, Finsupp.single_apply]
    refine if_congr ⟨fun e => ?_, fun e => by rw [e, emb_pull]⟩ rfl rfl
    rw [← e]
    funext i
    unfold pull
    by_cases hi : i < R.length
    · rw [if_pos hi, emb_getD R hn x y i hi]
    · rw [if_neg hi, hl i (by omega)]
  rw [moveW_eq]
  unfold daggerW
  rw [List.length_range, map_sum]
  refine Finset.sum_congr rfl fun v _ => ?_
  rw [map_smul, embW_ket, hw v]
  congr 2
  rw [moveW_eq, hpull]
  have : embW R (writeQ R v x) = embW R x := wave_ext fun y => by rw [embW_ket, embW_ket, hemb]
  rw [this, hamp _ (hk _ (low_write (pull_low R x) v))]

/-! ## circuits that do not reach a qubit -/

/-- flip qubit `q` -/
def atQ (q : ℕ) : Asg := fun p => decide (p = q)

theorem mv_atQ (q : ℕ) (x : Asg) : mv 1 (atQ q) x = flipQ q x := by
  funext p
  unfold mv atQ flipQ
  rw [show (Equiv.symm (1 : Equiv.Perm ℕ)) p = p from rfl]
  by_cases h : p = q
  · subst h; simp
  · rw [Function.update_of_ne h]; simp [h]

theorem mvW_atQ (q : ℕ) : mvW 1 (atQ q) = lift fun y => ket (flipQ q y) := wave_ext fun y => by rw [mvW_ket, lift_ket, mv_atQ]

theorem same_run {σ : Equiv.Perm ℕ} {f : Asg} (hσ : σ = 1) (ang : Rot → ℝ) (sc : Pipeline) (h : ∀ e ∈ sc, ∀ q ∈ e.1, f q = false) :
    Same σ f (fun x => runW ang sc (ket x)) fun x => runW ang sc (ket x) := by
  subst hσ
  induction sc with
  | nil => exact Same.ket
  | cons e sc ih =>
    have h1 : Same 1 f (fun x => entryW ang e (ket x)) fun x => entryW ang e (ket x) := by
      unfold entryW
      split
      · rename_i u _
        have := Same.gate (σ := 1) (f := f) (r := e.1) (fun q hq => h e (by simp) q hq) (uMat ang e.1.length u)
        rw [show e.1.map (1 : Equiv.Perm ℕ) = e.1 by simp] at this
        exact this
      · exact Same.ket
    exact h1.compL (A := runW ang sc) (A' := runW ang sc) (ih fun e he => h e (by simp [he]))

/-- if the action changes the last qubit or is influenced by it, the circuit reaches it -/
theorem touches_last {n : ℕ} (hn : 0 < n) {seg : Pipeline} {U : Asg → Wave} (hU : ∀ z ∈ Low n, runW rotAngle seg (ket z) = U z)
    (hm : ∀ x, U x = moveW (List.range n) U x) (ht : Touches (n - 1) U) : ∃ e ∈ seg, n - 1 ∈ e.1 := by
  by_contra hc
  push Not at hc
  have hlt : n - 1 < n := by omega
  have hq : n - 1 ∈ List.range n := by simpa using hlt
  have hl : ∀ x, pull (List.range n) x ∈ Low n := fun x => by simpa using pull_low (List.range n) x
  have hp : ∀ x, pull (List.range n) x (n - 1) = x (n - 1) := fun x => by
    unfold pull
    rw [List.length_range, if_pos hlt, List.getD_eq_getElem _ _ (by simpa using hlt), List.getElem_range]
  have hs := same_run rfl rotAngle seg (f := atQ (n - 1)) fun e he q hq => by
    unfold atQ
    simp only [decide_eq_false_iff_not]
    rintro rfl
    exact hc e he hq
  obtain ⟨x, ⟨y, hy, hne⟩ | hne⟩ := ht
  · rw [hm x, moveW_eq] at hy
    have h1 : On {y : Asg | y (n - 1) = x (n - 1)} (U (pull (List.range n) x)) := by
      rw [← hU _ (hl x)]
      by_contra h
      rw [← hp x] at h
      obtain ⟨e, he, hq⟩ := touched h
      exact hc e he hq
    have h2 : On {y : Asg | y (n - 1) = x (n - 1)} (embW (List.range n) x (U (pull (List.range n) x))) := h1.map _ fun z hz => by
      rw [embW_ket]
      refine On.ket ?_
      show emb (List.range n) x z (n - 1) = x (n - 1)
      rw [emb_range]
      simp only [if_pos hlt]
      exact hz
    exact hne (on_iff.mp h2 y hy)
  · apply hne
    have e1 : pull (List.range n) (flipQ (n - 1) x) = flipQ (n - 1) (pull (List.range n) x) := by
      funext i
      unfold flipQ
      by_cases hi : i = n - 1
      · subst hi
        rw [hp, Function.update_self, Function.update_self, hp]
      · rw [Function.update_of_ne hi]
        unfold pull
        by_cases h : i < (List.range n).length
        · rw [if_pos h, if_pos h, List.getD_eq_getElem _ _ h, List.getElem_range, Function.update_of_ne hi]
        · rw [if_neg h, if_neg h]
    have e2 : U (flipQ (n - 1) (pull (List.range n) x)) = lift (fun y => ket (flipQ (n - 1) y)) (U (pull (List.range n) x)) := by
      have := hs (pull (List.range n) x)
      simp only at this
      rw [mv_atQ, mvW_atQ, hU _ (hl x), ← e1, hU _ (hl _), e1] at this
      exact this
    have e3 : embW (List.range n) (flipQ (n - 1) x) ∘ₗ (lift fun y => ket (flipQ (n - 1) y)) = (lift fun y => ket (flipQ (n - 1) y)) ∘ₗ embW (List.range n) x :=
      wave_ext fun y => by
        rw [LinearMap.comp_apply, LinearMap.comp_apply, lift_ket, embW_ket, embW_ket, lift_ket]
        congr 1
        funext i
        rw [emb_range, emb_range]
        unfold flipQ
        by_cases hi : i = n - 1
        · subst hi
          simp [hlt]
        · simp only [Function.update_of_ne hi]
    rw [hm (flipQ (n - 1) x), hm x, moveW_eq, moveW_eq, e1, e2]
    exact LinearMap.congr_fun e3 _

end Verif
