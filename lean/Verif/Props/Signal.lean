import Verif.Spec.Signal
import Verif.Props.Uncompute

/-!
# Property C135: no signalling

What happens to some registers, measurements included, cannot be seen from the other registers.
-/

namespace Verif.Props
open Complex

/-- an operation commutes with the step -/
def Passes (rs : List Reg) (T : Wave → Wave) : Act → Prop
  | .run p => ∀ ψ, lift (p.wave false rs) (T ψ) = T (lift (p.wave false rs) ψ)
  | .measure i => ∀ m ψ, projW (rs.getD i []) m (T ψ) = T (projW (rs.getD i []) m ψ)

theorem passes_acts {rs : List Reg} {T : Wave → Wave} (h0 : T 0 = 0) (as : List Act) (h : ∀ a ∈ as, Passes rs T a) (ms : List ℕ) (ψ : Wave) :
    actsW rs as ms (T ψ) = T (actsW rs as ms ψ) := by
  induction as generalizing ms ψ with
  | nil => rfl
  | cons a as ih =>
    have h1 := h a (by simp)
    have h2 := fun b hb => h b (List.mem_cons_of_mem _ hb)
    cases a with
    | run p => rw [acts_run, acts_run, h1 ψ, ih h2]
    | measure i =>
      cases ms with
      | nil => simp only [actsW]; exact h0.symm
      | cons m ms => rw [acts_measure, acts_measure, h1 m ψ, ih h2]

theorem keeps_unused {p : Prog} {k : ℕ} (h : p.Uses k → p.Spares k) {rs : List Reg} (hp : p.Takes false rs) (hn : rs.flatten.Nodup) : KeepsReg (rs.getD k []) (p.wave false rs) := by
  by_cases hk : p.Uses k
  · exact p.leaves k (h hk) false rs hp hn
  · exact fun x => on_iff.mpr (C133_uses p false rs hp hn k hk x).1

theorem proj_comm (r s : Reg) (m n : ℕ) (ψ : Wave) : projW r m (projW s n ψ) = projW s n (projW r m ψ) := by
  ext x
  simp only [projW_apply]
  split <;> split <;> rfl

theorem act_append (rs : List Reg) (as bs : List Act) (ms ns : List ℕ) (h : ms.length = measures as) (ψ : Wave) :
    actsW rs (as ++ bs) (ms ++ ns) ψ = actsW rs bs ns (actsW rs as ms ψ) := by
  induction as generalizing ms ψ with
  | nil =>
    rw [measures, List.length_eq_zero_iff] at h
    subst h
    rfl
  | cons a as ih =>
    cases a with
    | run p => rw [List.cons_append, acts_run, acts_run, ih ms h]
    | measure i =>
      match ms, h with
      | m :: ms, h =>
        rw [List.cons_append, List.cons_append, acts_measure, acts_measure, ih ms (by simpa [measures] using h)]

theorem sum_congr_outcomes (rs : List Reg) (as : List Act) {f g : List ℕ → ENNReal} (h : ∀ ms, ms.length = measures as → f ms = g ms) : overOutcomes rs as f = overOutcomes rs as g := by
  induction as generalizing f g with
  | nil => exact h [] rfl
  | cons a as ih =>
    cases a with
    | run p => exact ih h
    | measure i => exact Finset.sum_congr rfl fun m _ => ih fun ms hm => h (m :: ms) (by simp [measures, hm])

theorem unseen (rs : List Reg) (hn : rs.flatten.Nodup) (bs as : List Act) (hb : ∀ b ∈ bs, b.Takes rs) (ha : ∀ a ∈ as, a.Takes rs) (hap : ∀ b ∈ bs, ∀ a ∈ as, b.Apart a) (ns : List ℕ) (ψ : Wave) :
    overOutcomes rs bs (fun ms => ENNReal.ofReal (normW (actsW rs (bs ++ as) (ms ++ ns) ψ))) = ENNReal.ofReal (normW (actsW rs as ns ψ)) := by
  induction bs generalizing ψ with
  | nil => rfl
  | cons b bs ih =>
    have ih := ih (fun c hc => hb c (by simp [hc])) (fun c hc => hap c (by simp [hc]))
    have hb1 := hb b (by simp)
    have hap1 := hap b (by simp)
    cases b with
    | run p =>
      have hT : p.Takes false rs := hb1
      simp only [overOutcomes, List.cons_append, acts_run]
      rw [ih, passes_acts (map_zero (lift (p.wave false rs))) as, ← lift_eq, C107_unitary p rs hT hn]
      intro a h
      have h1 := hap1 a h
      have h2 := ha a h
      cases a with
      | run q => exact fun χ => (apart_commute h1 hT h2 hn χ).symm
      | measure k => exact fun m χ => (keeps_unused h1 hT hn).proj m χ
    | measure k =>
      simp only [overOutcomes, List.cons_append, acts_measure]
      have : ∀ m, ENNReal.ofReal (normW (actsW rs as ns (projW (rs.getD k []) m ψ))) = ENNReal.ofReal (normW (projW (rs.getD k []) m (actsW rs as ns ψ))) := fun m => by
        rw [passes_acts (T := projW (rs.getD k []) m) (map_zero (projL (rs.getD k []) m)) as]
        intro a h
        have h1 := hap1 a h
        have h2 := ha a h
        cases a with
        | run q => exact fun χ => ((keeps_unused h1 h2 hn).proj m χ).symm
        | measure j => exact fun n χ => proj_comm _ _ _ _ _
      rw [Finset.sum_congr rfl fun m _ => (ih _).trans (this m), ← ENNReal.ofReal_sum_of_nonneg fun m _ => normW_nonneg _, normW_proj_sum]

/-- C135: take a main program, with any steps `pre`, then steps `bs` and `as` (programs and measurements), where no step of `bs` has to do with a step of `as`. What the measurements of `as` give,
together with those of `pre`, has the same probability as without `bs`, if one does not look at the outcomes of `bs`. -/
theorem C135_unseen {sizes : List ℕ} (hpos : ∀ k ∈ sizes, 0 < k) (pre bs as : List Act) (hT : ∀ a ∈ pre ++ (bs ++ as), a.Takes (blocks 0 sizes)) (hap : ∀ b ∈ bs, ∀ a ∈ as, b.Apart a) :
    ∃ S S', mainProg sizes (pre ++ (bs ++ as)) LocalBuilder.default = .ok (blocks 0 sizes, List.range (measures pre + measures bs + measures as)) S ∧
      mainProg sizes (pre ++ as) LocalBuilder.default = .ok (blocks 0 sizes, List.range (measures pre + measures as)) S' ∧
      ∀ it : List (Reg × ℕ), (∀ e ∈ it, e.1 ∈ blocks 0 sizes) → ∀ ms ns : List ℕ, ms.length = measures pre → ns.length = measures as →
        overOutcomes (blocks 0 sizes) bs (fun ls => outcomeProb S it (ms ++ (ls ++ ns))) = outcomeProb S' it (ms ++ ns) := by
  have hT' : ∀ a ∈ pre ++ as, a.Takes (blocks 0 sizes) := fun a ha => hT a (by
    simp only [List.mem_append] at ha ⊢
    tauto)
  obtain ⟨S, h⟩ := C106_runs sizes hpos _ hT
  obtain ⟨S', h'⟩ := C106_runs sizes hpos _ hT'
  refine ⟨S, S', by rw [h, measures_append, measures_append, Nat.add_assoc], by rw [h', measures_append], fun it hi ms ns hm hn => ?_⟩
  rw [C106_born hpos hT' h' it hi _ (by rw [List.length_append, measures_append, hm, hn]), act_append _ _ _ _ _ hm,
    ← unseen _ (blocks_apart sizes) bs as (fun b hb => hT b (by simp [hb])) (fun a ha => hT a (by simp [ha])) hap]
  refine sum_congr_outcomes _ _ fun ls hl => ?_
  rw [C106_born hpos hT h it hi _ (by simp only [List.length_append, measures_append, hm, hn, hl]), act_append _ _ _ _ _ hm]

/-- C135: where the steps have to do with each other, this is false: H, then H again and a measurement never gives 1, but with a measurement between the two H, whose outcome is not looked at,
it may. -/
theorem C135_needed : ∃ S S', mainProg [1] [.run (clonePrep 0 (some .h)), .measure 0, .run (clonePrep 0 (some .h)), .measure 0] LocalBuilder.default = .ok (blocks 0 [1], [0, 1]) S ∧
    mainProg [1] [.run (clonePrep 0 (some .h)), .run (clonePrep 0 (some .h)), .measure 0] LocalBuilder.default = .ok (blocks 0 [1], [0]) S' ∧
    overOutcomes (blocks 0 [1]) [.measure 0] (fun ls => outcomeProb S [] (ls ++ [1])) ≠ 0 ∧ outcomeProb S' [] [1] = 0 := by
  have hb : blocks 0 [1] = [[0]] := by decide
  have hi : initAsg [] = fun _ => false := by funext q; simp [initAsg]
  have hx : (clonePrep 0 (some .h)).Takes false (blocks 0 [1]) := by rw [hb]; exact clonePrep_takes (by simp) (by simp) _
  have hm : (0 : ℕ) < (blocks 0 [1]).length := by rw [hb]; simp
  have hT : ∀ a ∈ [Act.run (clonePrep 0 (some .h)), .measure 0, .run (clonePrep 0 (some .h)), .measure 0], a.Takes (blocks 0 [1]) := by
    intro a ha
    simp only [List.mem_cons, List.not_mem_nil, or_false] at ha
    rcases ha with rfl | rfl | rfl | rfl
    exacts [hx, hm, hx, hm]
  have hT' : ∀ a ∈ [Act.run (clonePrep 0 (some .h)), .run (clonePrep 0 (some .h)), .measure 0], a.Takes (blocks 0 [1]) := by
    intro a ha
    simp only [List.mem_cons, List.not_mem_nil, or_false] at ha
    rcases ha with rfl | rfl | rfl
    exacts [hx, hx, hm]
  obtain ⟨S, h⟩ := C106_runs [1] (by simp) _ hT
  obtain ⟨S', h'⟩ := C106_runs [1] (by simp) _ hT'
  have g0 : (([[0]] : List Reg).getD 0 []) = [0] := rfl
  have g00 : ([0] : Reg).getD 0 0 = 0 := rfl
  refine ⟨S, S', h, h', ?_, ?_⟩
  · intro h0
    simp only [overOutcomes] at h0
    have := (Finset.sum_eq_zero_iff.mp h0) 0 (by simp)
    rw [List.cons_append, List.nil_append, C106_born (by simp) hT h [] (by simp) [0, 1] rfl, hi, hb, acts_run, acts_measure, acts_run, acts_measure, clonePrep_lift, g0, g00, optW, actsW,
      ENNReal.ofReal_eq_zero] at this
    have hz := normW_eq_zero (le_antisymm this (normW_nonneg _))
    have hy := congrArg (fun ψ : Wave => ψ (setQ 0 true fun _ => false)) hz
    have k1 : ket (fun _ => false) (fun _ => false) = 1 := Finsupp.single_eq_same
    have k2 : ket (fun _ => false) (setQ 0 true fun _ => false) = 0 := Finsupp.single_eq_of_ne fun h => by simpa using congrFun h 0
    have e0 : setQ 0 false (fun _ => false) = fun _ => false := setQ_self 0 (fun _ => false) false rfl
    have hs := sqrt_half_ne
    simp only [projW_apply, h_at, set_set, e0, k1, k2] at hy
    simp [valQ] at hy
  · have h2 : gateW [0] (Named.mat .h) (gateW [0] (Named.mat .h) (ket fun _ => false)) = ket fun _ => false := had_twice [0] (by simp) _
    rw [C106_born (by simp) hT' h' [] (by simp) [1] rfl, hi, hb, acts_run, acts_run, acts_measure, clonePrep_lift, g0, g00, optW, h2, ← projL_apply, projL_ket,
      if_neg (by simp [valQ])]
    rw [actsW, normW_zero, ENNReal.ofReal_zero]

/-- example: half of a Bell pair. H on register 0, `cnot` to register 1; then H on register 0 and its measurement cannot be seen in a measurement of register 1 after another H there -/
example : ∀ b ∈ [Act.run (clonePrep 0 (some .h)), .measure 0], ∀ a ∈ [Act.run (clonePrep 1 (some .h)), .measure 1], b.Apart a := by
  intro b hb a ha
  simp only [List.mem_cons, List.not_mem_nil, or_false] at hb ha
  rcases hb with rfl | rfl <;> rcases ha with rfl | rfl <;> simp [Act.Apart, Apart, clonePrep, Prog.Uses, Lines.Uses]

/-- the other hypotheses -/
example : ∀ a ∈ [Act.run (clonePrep 0 (some .h)), .run (.call .copy)] ++ ([.run (clonePrep 0 (some .h)), .measure 0] ++ [.run (clonePrep 1 (some .h)), .measure 1]), a.Takes (blocks 0 [1, 1]) := by
  have hb : blocks 0 [1, 1] = [[0], [1]] := by decide
  rw [hb]
  intro a ha
  simp only [List.cons_append, List.nil_append, List.mem_cons, List.not_mem_nil, or_false] at ha
  rcases ha with rfl | rfl | rfl | rfl | rfl | rfl
  · exact clonePrep_takes (by simp) (by simp) _
  · show (Prog.call .copy).Takes false [[0], [1]]
    simp [Prog.Takes, Method.Takes]
  · exact clonePrep_takes (by simp) (by simp) _
  · show 0 < 2; omega
  · exact clonePrep_takes (by simp) (by simp) _
  · show 1 < 2; omega

end Verif.Props
