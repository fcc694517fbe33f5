import Verif.Proofs.Runs

/-! # Branches of states that differ by a factor -/

namespace Verif
open Complex Classical

theorem branchW_smul (ang : Rot → ℝ) (p : Pipeline) (ms : List ℕ) (c : ℂ) (ψ : Wave) :
    branchW ang p ms (c • ψ) = c • branchW ang p ms ψ := by
  induction p generalizing ms ψ with
  | nil => rfl
  | cons e p ih =>
    cases ho : e.2.object with
    | unitary u => rw [branchW_unitary _ _ _ _ _ u ho, branchW_unitary _ _ _ _ _ u ho, map_smul, ih]
    | meas o =>
      cases ms with
      | nil => simp [branchW, ho]
      | cons m ms => rw [branchW_meas _ _ _ _ _ _ _ ho, branchW_meas _ _ _ _ _ _ _ ho, projW_smul, ih]

theorem reportW_smul (ang : Rot → ℝ) (p : Pipeline) (ms : List ℕ) (c : ℂ) (hc : normSq c = 1) (ψ : Wave) :
    reportW ang p ms (c • ψ) = reportW ang p ms ψ := by
  induction p generalizing ms ψ with
  | nil => rfl
  | cons e p ih =>
    cases ho : e.2.object with
    | unitary u => rw [reportW_unitary _ _ _ _ _ u ho, reportW_unitary _ _ _ _ _ u ho, map_smul, ih]
    | meas o =>
      cases ms with
      | nil => simp [reportW, ho]
      | cons m ms =>
        rw [reportW_meas _ _ _ _ _ _ _ ho, reportW_meas _ _ _ _ _ _ _ ho, projW_smul, ih, normW_smul, normW_smul, hc, one_mul, one_mul]

theorem softLoop_congr (v w : List ℂ) (h : v.map normSq = w.map normSq) (i : ℕ) (r : ℝ) : softLoop v i r = softLoop w i r := by
  induction v generalizing w i r with
  | nil =>
    cases w with
    | nil => rfl
    | cons b w => simp at h
  | cons a v ih =>
    cases w with
    | nil => simp at h
    | cons b w =>
      rw [List.map_cons, List.map_cons] at h
      injection h with h1 h2
      simp only [softLoop]
      rw [h1, ih w h2]

theorem softMeasure_congr (n : ℕ) (idx : List ℕ) (v w : List ℂ) (h : v.map normSq = w.map normSq) (o : Option ℕ) (t : ℝ) :
    softMeasure n idx v o t = softMeasure n idx w o t := by
  have hl : v.length = w.length := by simpa using congrArg List.length h
  unfold softMeasure probMagnitude
  rw [hl, h]
  simp only [softLoop_congr v w h]

theorem unitW_smul (c : ℂ) (hc : normSq c = 1) (ψ : Wave) : unitW (c • ψ) = c • unitW ψ := by
  unfold unitW
  rw [normW_smul, hc, one_mul, smul_comm]

theorem vecW_smul (n : ℕ) (c : ℂ) (hc : normSq c = 1) (ψ : Wave) : (vecW n (c • ψ)).map normSq = (vecW n ψ).map normSq := by
  unfold vecW
  rw [List.map_map, List.map_map]
  refine List.map_congr_left fun i _ => ?_
  simp [hc]

theorem drawSets_smul (n : ℕ) (p : Pipeline) (ms : List ℕ) (c : ℂ) (hc : normSq c = 1) (ψ : Wave) :
    drawSets n p ms (c • ψ) = drawSets n p ms ψ := by
  induction p generalizing ms ψ with
  | nil => rfl
  | cons e p ih =>
    cases ho : e.2.object with
    | unitary u => simp only [drawSets, ho, map_smul]; exact ih _ _
    | meas o =>
      cases ms with
      | nil => simp [drawSets, ho]
      | cons m ms =>
        simp only [drawSets, ho, projW_smul]
        rw [ih, unitW_smul c hc]
        congr 1
        ext t
        rw [Set.mem_setOf_eq, Set.mem_setOf_eq, softMeasure_congr n e.1 _ _ (vecW_smul n c hc _)]

/-- a piece of circuit without measurements -/
theorem branchW_gates (ang : Rot → ℝ) (g q : Pipeline) (hg : ∀ e ∈ g, isMeas e = false) (ms : List ℕ) (ψ : Wave) :
    branchW ang (g ++ q) ms ψ = branchW ang q ms (runW ang g ψ) := by
  induction g generalizing ψ with
  | nil => rfl
  | cons e g ih =>
    cases ho : e.2.object with
    | unitary u =>
      rw [List.cons_append, branchW_unitary _ _ _ _ _ u ho, ih fun e he => hg e (by simp [he])]
      rfl
    | meas o =>
      have := hg e (by simp)
      simp [isMeas, ho] at this

theorem reportW_gates (ang : Rot → ℝ) (g q : Pipeline) (hg : ∀ e ∈ g, isMeas e = false) (ms : List ℕ) (ψ : Wave) :
    reportW ang (g ++ q) ms ψ = reportW ang q ms (runW ang g ψ) := by
  induction g generalizing ψ with
  | nil => rfl
  | cons e g ih =>
    cases ho : e.2.object with
    | unitary u =>
      rw [List.cons_append, reportW_unitary _ _ _ _ _ u ho, ih fun e he => hg e (by simp [he])]
      rfl
    | meas o =>
      have := hg e (by simp)
      simp [isMeas, ho] at this

theorem drawSets_gates (n : ℕ) (g q : Pipeline) (hg : ∀ e ∈ g, isMeas e = false) (ms : List ℕ) (ψ : Wave) :
    drawSets n (g ++ q) ms ψ = drawSets n q ms (runW rotAngle g ψ) := by
  induction g generalizing ψ with
  | nil => rfl
  | cons e g ih =>
    cases ho : e.2.object with
    | unitary u =>
      rw [List.cons_append]
      simp only [drawSets, ho]
      rw [ih fun e he => hg e (by simp [he])]
      rfl
    | meas o =>
      have := hg e (by simp)
      simp [isMeas, ho] at this

theorem measCount_gates (g : Pipeline) (hg : ∀ e ∈ g, isMeas e = false) : measCount g = 0 := by
  unfold measCount
  rw [List.countP_eq_zero]
  exact fun e he => by simp [hg e he]

theorem Rep.smul {n : ℕ} {v : List ℂ} {ψ : Wave} (h : Rep n v ψ) (c : ℂ) : Rep n (v.map (c * ·)) (c • ψ) := by
  refine ⟨by simp [h.1], fun i hi => ?_⟩
  rw [List.getElem?_map, h.2 i hi]
  simp

/-- A linear map that leaves the value of `r` alone on the basis states of `S` commutes with the outcome of measuring `r`. -/
theorem proj_run_comm (S : Set Asg) (U : Wave →ₗ[ℂ] Wave) (r : Reg) (h : ∀ x ∈ S, On {y | valQ r y = valQ r x} (U (ket x))) (m : ℕ) (ψ : Wave)
    (hψ : On S ψ) : projW r m (U ψ) = U (projW r m ψ) := by
  have key : ∀ x ∈ S, projW r m (U (ket x)) = U (projW r m (ket x)) := by
    intro x hx
    by_cases hm : valQ r x = m
    · rw [projW_on (On.ket (S := {y | valQ r y = m}) hm), projW_on (hm ▸ h x hx)]
    · rw [projW_off (On.ket (S := {y | valQ r y = valQ r x}) rfl) hm, projW_off (h x hx) hm, map_zero]
  have e : Set.EqOn (projL r m ∘ₗ U) (U ∘ₗ projL r m) (Finsupp.supported ℂ ℂ S) := by
    intro φ hφ
    rw [SetLike.mem_coe] at hφ
    rw [← Finsupp.sum_single φ, Finsupp.sum, map_sum, map_sum]
    refine Finset.sum_congr rfl fun x hx => ?_
    have hxl : x ∈ S := hφ hx
    rw [show (Finsupp.single x (φ x) : Wave) = φ x • ket x by simp [ket], map_smul, map_smul]
    exact congrArg _ (key x hxl)
  exact e hψ

/-- linear maps that agree on the basis states of `S` agree on the states made of them -/
theorem eq_on (S : Set Asg) (U V : Wave →ₗ[ℂ] Wave) (h : ∀ x ∈ S, U (ket x) = V (ket x)) (ψ : Wave) (hψ : On S ψ) : U ψ = V ψ := by
  rw [← Finsupp.sum_single ψ, Finsupp.sum, map_sum, map_sum]
  refine Finset.sum_congr rfl fun x hx => ?_
  rw [show (Finsupp.single x (ψ x) : Wave) = ψ x • ket x by simp [ket], map_smul, map_smul, h x (hψ hx)]

theorem run_low {n : ℕ} (g : Pipeline) (hg : ∀ e ∈ g, SegU n e) {ψ : Wave} (h : On (Low n) ψ) : On (Low n) (runW rotAngle g ψ) := by
  induction g generalizing ψ with
  | nil => exact h
  | cons e g ih => exact ih (fun e he => hg e (by simp [he])) (h.entryLow e (hg e (by simp)).1.1.2.1)

theorem normW_run {n : ℕ} (g : Pipeline) (hg : ∀ e ∈ g, SegU n e) {ψ : Wave} (h : On (Low n) ψ) : normW (runW rotAngle g ψ) = normW ψ := by
  induction g generalizing ψ with
  | nil => rfl
  | cons e g ih =>
    show normW (runW rotAngle g (entryW rotAngle e ψ)) = _
    rw [ih (fun e he => hg e (by simp [he])) (h.entryLow e (hg e (by simp)).1.1.2.1), normW_entry h e (hg e (by simp))]

end Verif
