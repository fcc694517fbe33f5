import Verif.Proofs.Toffoli
import Verif.Proofs.Emit2

/-! # Actions of named gates, `swap` and rotations -/

namespace Verif
open Classical Complex RegOps Rooted

variable (ang : Rot → ℝ)

/-- products of one-qubit gates -/
theorem gate1_comp (q : ℕ) (a b c d a' b' c' d' : ℂ) (ψ : Wave) :
    gateW [q] (mat2 a b c d) (gateW [q] (mat2 a' b' c' d') ψ) =
      gateW [q] (mat2 (a * a' + b * c') (a * b' + b * d') (c * a' + d * c') (c * b' + d * d')) ψ := by
  suffices h : gateW [q] (mat2 a b c d) ∘ₗ gateW [q] (mat2 a' b' c' d') =
      gateW [q] (mat2 (a * a' + b * c') (a * b' + b * d') (c * a' + d * c') (c * b' + d * d')) by
    exact congrArg (fun L => L ψ) h
  apply wave_ext
  intro x
  have s1 : ∀ v w, setQ q v (setQ q w x) = setQ q v x := fun v w => Function.update_idem _ _ _
  have s2 : ∀ v, (setQ q v x) q = v := fun v => Function.update_self _ _ _
  rw [LinearMap.comp_apply, gate1_ket, map_add, map_smul, map_smul, gate1_ket, gate1_ket, gate1_ket]
  simp only [s1, s2, (mat2_toNat _ _ _ _ _).1, (mat2_toNat _ _ _ _ _).2]
  cases x q <;> simp only [Bool.false_eq_true, if_false, if_true] <;> module

theorem gate1_one (q : ℕ) (ψ : Wave) : gateW [q] (mat2 1 0 0 1) ψ = ψ := by
  suffices h : gateW [q] (mat2 1 0 0 1) = LinearMap.id by
    exact congrArg (fun L => L ψ) h
  apply wave_ext
  intro x
  rw [phase_ket]
  simp

theorem each_eachW (r : Reg) (u : UObj) (ψ : Wave) : runW ang (each r u) ψ = eachW (uMat ang 1 u) r ψ := by
  induction r generalizing ψ with
  | nil => rfl
  | cons q r ih => rw [each_cons, ih]; rfl

theorem eachW_gate1_comm (m m' : ℕ → ℕ → ℂ) (q : ℕ) (r : Reg) (h : q ∉ r) (ψ : Wave) :
    eachW m r (gateW [q] m' ψ) = gateW [q] m' (eachW m r ψ) := by
  induction r generalizing ψ with
  | nil => rfl
  | cons p r ih =>
    simp only [List.mem_cons, not_or] at h
    show eachW m r (gateW [p] m (gateW [q] m' ψ)) = gateW [q] m' (eachW m r (gateW [p] m ψ))
    rw [gate1_comm p q (Ne.symm h.1), ih h.2]

theorem eachW_comp (r : Reg) (hn : r.Nodup) (a b c d a' b' c' d' : ℂ) (ψ : Wave) :
    eachW (mat2 a b c d) r (eachW (mat2 a' b' c' d') r ψ) =
      eachW (mat2 (a * a' + b * c') (a * b' + b * d') (c * a' + d * c') (c * b' + d * d')) r ψ := by
  induction r generalizing ψ with
  | nil => rfl
  | cons q r ih =>
    obtain ⟨h1, h2⟩ := List.nodup_cons.mp hn
    show eachW _ r (gateW [q] _ (eachW _ r (gateW [q] _ ψ))) = eachW _ r (gateW [q] _ ψ)
    rw [← eachW_gate1_comm _ _ _ _ h1, ih h2, gate1_comp]

theorem eachW_one (r : Reg) (ψ : Wave) : eachW (mat2 1 0 0 1) r ψ = ψ := by
  induction r generalizing ψ with
  | nil => rfl
  | cons q r ih => show eachW _ r (gateW [q] _ ψ) = ψ; rw [gate1_one, ih]

/-! ## swap -/

/-- one exchange -/
def swapQ (a b : ℕ) (x : Asg) : Asg := fun q => if q = a then x b else if q = b then x a else x q

theorem swap1_ket (a b : ℕ) (h : a ≠ b) (x : Asg) : runW ang (swapSeg1 (a, b)) (ket x) = ket (swapQ a b x) := by
  unfold swapSeg1
  rw [runW_append, runW_append]
  simp only
  rw [cnots_ket ang a [b] (by simp [h]), cnots_ket ang b [a] (by simp [h.symm]), cnots_ket ang a [b] (by simp [h])]
  congr 1
  funext q
  simp only [flipAll_single]
  unfold swapQ flipQ
  by_cases h1 : q = a
  · subst h1
    cases h2 : x q <;> cases h3 : x b <;> simp [Function.update_apply, h2, h3, h, h.symm]
  · by_cases h4 : q = b
    · subst h4
      cases h2 : x a <;> cases h3 : x q <;> simp [Function.update_apply, h2, h3, h, h.symm]
    · cases h2 : x a <;> cases h3 : x b <;> simp [Function.update_apply, h2, h3, h, h.symm, h1, h4]

/-- the exchange of two registers -/
def swapR : Reg → Reg → Asg → Asg
  | a :: ra, b :: rb, x => swapR ra rb (swapQ a b x)
  | _, _, x => x

theorem swap_ket (ra rb : Reg) (hl : ra.length = rb.length) (hn : (ra ++ rb).Nodup) (x : Asg) :
    runW ang (swapSeg ra rb) (ket x) = ket (swapR ra rb x) := by
  induction ra generalizing rb x with
  | nil => cases rb with
    | nil => rfl
    | cons => simp at hl
  | cons a ra ih =>
    cases rb with
    | nil => simp at hl
    | cons b rb =>
      have hab : a ≠ b := by simp at hn; tauto
      have hn' : (ra ++ rb).Nodup := hn.sublist (by
        rw [List.cons_append]
        exact List.Sublist.cons _ (List.Sublist.append (List.Sublist.refl _) (List.sublist_cons_self _ _)))
      show runW ang (swapSeg1 (a, b) ++ swapSeg ra rb) (ket x) = _
      rw [runW_append, swap1_ket ang a b hab, ih rb (by simpa using hl) hn']
      rfl

theorem swapR_not_mem (ra rb : Reg) (x : Asg) (q : ℕ) (h1 : q ∉ ra) (h2 : q ∉ rb) : swapR ra rb x q = x q := by
  induction ra generalizing rb x with
  | nil => cases rb <;> rfl
  | cons a ra ih =>
    cases rb with
    | nil => rfl
    | cons b rb =>
      simp only [List.mem_cons, not_or] at h1 h2
      rw [swapR, ih rb _ h1.2 h2.2]
      simp [swapQ, h1.1, h2.1]

theorem swapR_get (ra rb : Reg) (hl : ra.length = rb.length) (hn : (ra ++ rb).Nodup) (x : Asg) (i : ℕ) (hi : i < ra.length) :
    swapR ra rb x ra[i] = x (rb[i]'(by omega)) ∧ swapR ra rb x (rb[i]'(by omega)) = x ra[i] := by
  induction ra generalizing rb x i with
  | nil => simp at hi
  | cons a ra ih =>
    cases rb with
    | nil => simp at hl
    | cons b rb =>
      have hab : a ≠ b := by simp at hn; tauto
      have hn' : (ra ++ rb).Nodup := hn.sublist (by
        rw [List.cons_append]
        exact List.Sublist.cons _ (List.Sublist.append (List.Sublist.refl _) (List.sublist_cons_self _ _)))
      have ha1 : a ∉ ra := by simp at hn; tauto
      have ha2 : a ∉ rb := by simp at hn; tauto
      have hb1 : b ∉ ra := by
        intro h
        have := (List.nodup_append.mp hn).2.2 b (by simp [h]) b (by simp)
        exact this rfl
      have hb2 : b ∉ rb := (List.nodup_cons.mp (List.nodup_append.mp hn).2.1).1
      cases i with
      | zero =>
        simp only [List.getElem_cons_zero, swapR]
        rw [swapR_not_mem ra rb _ a ha1 ha2, swapR_not_mem ra rb _ b hb1 hb2]
        simp [swapQ, hab.symm]
      | succ i =>
        simp only [List.getElem_cons_succ, swapR]
        obtain ⟨h1, h2⟩ := ih rb (by simpa using hl) hn' (swapQ a b x) i (by simpa using hi)
        rw [h1, h2]
        have m1 : ra[i]'(by simpa using hi) ∈ ra := List.getElem_mem _
        have m2 : rb[i]'(by simp at hl hi; omega) ∈ rb := List.getElem_mem _
        have n1 : ra[i]'(by simpa using hi) ≠ a := fun h => ha1 (h ▸ m1)
        have n2 : ra[i]'(by simpa using hi) ≠ b := fun h => hb1 (h ▸ m1)
        have n3 : rb[i]'(by simp at hl hi; omega) ≠ a := fun h => ha2 (h ▸ m2)
        have n4 : rb[i]'(by simp at hl hi; omega) ≠ b := fun h => hb2 (h ▸ m2)
        simp [swapQ, n1, n2, n3, n4]

theorem segOK_swap {b : LocalBuilder} {L : List ℕ} (h1 : Own b L) (ra rb : Reg) (hn : (ra ++ rb).Nodup)
    (hr : ∀ q ∈ ra ++ rb, q ∈ L) : ∀ e ∈ swapSeg ra rb, SegU b.n e ∧ ∀ q ∈ e.1, q ∈ L := by
  intro e he
  unfold swapSeg at he
  rw [List.mem_flatten] at he
  obtain ⟨l, hl', he⟩ := he
  simp only [List.mem_map, Prod.exists] at hl'
  obtain ⟨p, q, hpq, rfl⟩ := hl'
  obtain ⟨hp, hq⟩ := List.of_mem_zip hpq
  have hne : p ≠ q := (List.nodup_append.mp hn).2.2 p hp q hq
  have hpL : p ∈ L := hr p (by simp [hp])
  have hqL : q ∈ L := hr q (by simp [hq])
  have i1 := segOK_cnots h1 p [q] (by simpa using hne) (by simp [hpL, hqL])
  have i2 := segOK_cnots h1 q [p] (by simpa using hne.symm) (by simp [hpL, hqL])
  exact segOK_append i1 (segOK_append i2 i1) e he

/-! ## rotations -/

theorem exp_split (θ : ℝ) : exp (θ / 2 * I) = cos (θ / 2) + sin (θ / 2) * I ∧
    exp (-(θ / 2) * I) = cos (θ / 2) - sin (θ / 2) * I := by
  refine ⟨exp_mul_I _, ?_⟩
  rw [exp_mul_I, cos_neg, sin_neg]; ring

/-- H Rz H = Rx -/
theorem h_rz_h (q : ℕ) (θ : ℝ) (ψ : Wave) :
    u1 ang q .H (gateW [q] (rzMat θ) (u1 ang q .H ψ)) = gateW [q] (rxMat θ) ψ := by
  have s2 := sqrt2_sq
  obtain ⟨e1, e2⟩ := exp_split θ
  show gateW [q] (mat2 _ _ _ _) (gateW [q] (mat2 _ _ _ _) (gateW [q] (mat2 _ _ _ _) ψ)) = _
  rw [gate1_comp, gate1_comp, e1, e2]
  unfold rxMat
  set w := (1 / (Real.sqrt 2 : ℂ)) with hw
  congr 3
  · linear_combination (2 * cos (θ / 2)) * s2
  · linear_combination (-2 * sin (θ / 2) * I) * s2
  · linear_combination (-2 * sin (θ / 2) * I) * s2
  · linear_combination (2 * cos (θ / 2)) * s2

/-- S Rx(-θ) S† = Ry(-θ) -/
theorem s_rx_sd (q : ℕ) (θ : ℝ) (ψ : Wave) :
    u1 ang q .S (gateW [q] (rxMat (-θ)) (u1 ang q .S (u1 ang q .Z ψ))) = gateW [q] (ryMat (-θ)) ψ := by
  have hI : I * I = -1 := I_mul_I
  show gateW [q] (mat2 _ _ _ _) (gateW [q] (mat2 _ _ _ _) (gateW [q] (mat2 _ _ _ _) (gateW [q] (mat2 _ _ _ _) ψ))) = _
  rw [gate1_comp, gate1_comp, gate1_comp]
  unfold ryMat
  congr 3
  · ring
  · push_cast
    linear_combination (sin (-θ / 2)) * hI
  · push_cast
    linear_combination (-sin (-θ / 2)) * hI
  · linear_combination (-cos ((-θ : ℝ) / 2)) * hI

/-- S† Rx(-θ) S = Ry(θ) -/
theorem sd_rx_s (q : ℕ) (θ : ℝ) (ψ : Wave) :
    u1 ang q .S (u1 ang q .Z (gateW [q] (rxMat (-θ)) (u1 ang q .S ψ))) = gateW [q] (ryMat θ) ψ := by
  have hI : I * I = -1 := I_mul_I
  have h1 : sin (((-θ : ℝ) : ℂ) / 2) = -sin (θ / 2) := by push_cast; rw [neg_div, sin_neg]
  have h2 : cos (((-θ : ℝ) : ℂ) / 2) = cos (θ / 2) := by push_cast; rw [neg_div, cos_neg]
  show gateW [q] (mat2 _ _ _ _) (gateW [q] (mat2 _ _ _ _) (gateW [q] (mat2 _ _ _ _) (gateW [q] (mat2 _ _ _ _) ψ))) = _
  rw [gate1_comp, gate1_comp, gate1_comp]
  unfold ryMat
  rw [h1, h2]
  congr 3
  · ring
  · linear_combination (sin (θ / 2)) * hI
  · linear_combination (-sin (θ / 2)) * hI
  · linear_combination (-cos (θ / 2)) * hI

end Verif
