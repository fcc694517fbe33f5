import Verif.Proofs.FloatCertain
import Verif.Props.FloatJoint
import Verif.Props.Arith

/-!
# Property C127: outcomes that are certain are reported for every draw, in floating point arithmetic

If quantum mechanics predicts all outcomes of a program with certainty, rounding can still lead to another outcome: an amplitude that should be zero is computed as a small
number (C88). This needs a draw near one of the places at which `soft_measure` goes from one basis state to the next. For all other draws, every run of the floating point
calculation reports the predicted outcomes, each with a probability near one, and its final state is near the exact one. This is about each single run, unlike the
frequencies of C123 and C125, and unlike C126 about all gates.
-/

namespace Verif.Props
open Verif MatrixOp Format.Arith Finset

variable {f : Format} {fl : ℝ → ℝ}

/-- C127, circuits of gates and measurements in any order, for every initial value: with `J` measurements and `B = 2^J·(cost + 13·J·2^n)·2^-p` at most one, draws further than
`3·B + 20·2^n·2^-p` from the sums in `D` lead to the certain outcomes. -/
theorem C127_circuit (A : f.Arith fl) (hf : 10 ≤ f.p) (he : f.emin + 2 * f.p + 4 ≤ 0) (b : LocalBuilder) (hN : 2 ^ b.n * f.eps ≤ 1 / 64)
    (it : List (Reg × ℕ)) (h : ∀ p ∈ it, ∀ q ∈ p.1, q < b.n) (hp : ∀ e ∈ b.pipeline, StepOK b.n e)
    (els : List (ElemP A.Num)) (hels : List.Forall₂ (ElemAs A) els b.pipeline) {D : Set ℝ} {ms : List ℕ} {χ : Wave}
    (hS : SureRun D b.pipeline (ket (initAsg it)) ms χ) (B : ℝ) (hB : 2 ^ ms.length * (((circuitCost b.pipeline : ℝ) + 13 * ms.length * 2 ^ b.n) * f.eps) ≤ B)
    (hB1 : B ≤ 1) :
    ∃ x, initialIndex b.n it = some x ∧
      CertainRuns A b.n els x D ms χ (3 * B + 20 * (2 ^ b.n * f.eps)) (3 * B + 24 * (2 ^ b.n * f.eps)) B := by
  obtain ⟨i, i1, i2, i3⟩ := initialIndex_eq b.n it h
  have R := A.limits (by omega)
  have hl : ∀ {K : Type} [Zero K] [One K], ((List.replicate (2 ^ b.n) (0 : K)).set i 1).length = 2 ^ b.n := by simp
  have hlow : On (Low b.n) (ket (initAsg it)) := by rw [← i3]; exact On.ket (asg_low _ _)
  refine ⟨i, i1, fun rnds hr => ?_⟩
  obtain ⟨k1, k2⟩ := certain_run A hf he b.n hN B hB1 rnds hr hS els hels hp hlow (normW_ket _) 0 (by rw [zero_add, ← hS.length]; exact hB)
    ⟨(List.replicate (2 ^ b.n) 0).set i 1, List.replicate (2 ^ b.n) 0, []⟩ hl (by simp) (by
      intro a ha
      rcases List.mem_or_eq_of_mem_set ha with ha | rfl
      · rw [List.mem_replicate] at ha
        rw [ha.2]; exact R.fin_zero
      · exact R.fin_one) (by
      rw [nrm_congr b.n _ (fun _ => 0) (fun r hr => by
        show vals A.val ((List.replicate (2 ^ b.n) (0 : A.Num)).set i 1) r - ket (initAsg it) (asg b.n r) = 0
        classical
        rw [vals_initial A.val R.val_zero R.val_one b.n i r hr, ← i3]
        unfold ket
        rw [Finsupp.single_apply]
        by_cases hri : r = i
        · subst hri; simp
        · rw [if_neg hri, if_neg fun e => hri (asg_inj b.n i r i2 hr e).symm, sub_zero])]
      simp [nrm])
  refine ⟨k1, fun t ht => ?_⟩
  obtain ⟨⟨l, l1, l2⟩, l3⟩ := k2 t ht
  rw [List.nil_append] at l1
  exact ⟨l1 ▸ l2, l3⟩

theorem init_clean {sizes : List ℕ} (it : List (Reg × ℕ)) (hi : ∀ p ∈ it, p.1 ∈ blocks 0 sizes) :
    On {x | Clean { LocalBuilder.default with n := sizes.sum } x} (ket (initAsg it)) := by
  classical
  refine On.ket ?_
  rintro q (hq' | hq')
  · cases hq'
  · unfold initAsg
    refine decide_eq_false ?_
    rintro ⟨p, hp, k, hk, -⟩
    have : q ∈ (blocks 0 sizes).flatten := List.mem_flatten.mpr ⟨_, hi p hp, List.mem_of_getElem? hk⟩
    rw [blocks_eq, ranges_flatten] at this
    exact absurd hq' (by simpa using this)

/-- C127: main programs. Structured programs and measurements in any order, all gates and library functions; every initial value; every floating point circuit `c` that the
pipeline is meant by. -/
theorem C127_programs (A : f.Arith fl) (hf : 10 ≤ f.p) (he : f.emin + 2 * f.p + 4 ≤ 0) (L : StdLib f) (hL : L.Accurate f.eps) {sizes : List ℕ}
    (hpos : ∀ k ∈ sizes, 0 < k) {acts : List Act} (hT : ∀ a ∈ acts, a.Takes (blocks 0 sizes))
    {out : List Reg × List ℕ} {s : LocalBuilder} (h : mainProg sizes acts LocalBuilder.default = .ok out s)
    (it : List (Reg × ℕ)) (hit : ∀ p ∈ it, p.1 ∈ blocks 0 sizes) (hN : 2 ^ s.n * f.eps ≤ 1 / 64) (c : List (List ℕ × ObjTypeP f))
    (hm : List.Forall₂ Meant c s.pipeline) (hw : ∀ e ∈ c, e.2.Within 1) {D : Set ℝ} {ms : List ℕ} {χ : Wave}
    (hS : ActsSure D (blocks 0 sizes) acts (ket (initAsg it)) ms χ) (B : ℝ)
    (hB : 2 ^ ms.length * (((circuitCost s.pipeline : ℝ) + 13 * ms.length * 2 ^ s.n) * f.eps) ≤ B) (hB1 : B ≤ 1) :
    ∃ (els : List (ElemP A.Num)) (x : ℕ), c.mapM (elemP A L) = .ok (els.map elemOf) ∧ initialIndex s.n it = some x ∧
      CertainRuns A s.n els x D ms χ (3 * B + 20 * (2 ^ s.n * f.eps)) (3 * B + 24 * (2 ^ s.n * f.eps)) B := by
  obtain ⟨g1, g2, -, -⟩ := main_facts hpos hT h it hit
  obtain ⟨els, e1, e2⟩ := C122_measured A (by omega) L hL s.n c s.pipeline hm g2 hw
  obtain ⟨x, x1, x2⟩ := C127_circuit A hf he s hN it g1 g2 els e2 (main_sure sizes hpos acts hT (init_clean it hit) hS h) B hB hB1
  exact ⟨els, x, e1, x1, x2⟩

theorem CertainRuns.mono {A : f.Arith fl} {n : ℕ} {els : List (ElemP A.Num)} {x : ℕ} {D : Set ℝ} {ms : List ℕ} {χ : Wave} {δ κ B δ' κ' B' : ℝ}
    (h : CertainRuns A n els x D ms χ δ κ B) (h1 : δ ≤ δ') (h2 : κ ≤ κ') (h3 : B ≤ B') : CertainRuns A n els x D ms χ δ' κ' B' := by
  intro rnds hr
  obtain ⟨k1, k2⟩ := h rnds fun k => ⟨(hr k).1, (hr k).2.1, fun d hd => lt_of_le_of_lt h1 ((hr k).2.2 d hd)⟩
  refine ⟨k1, fun t ht => ?_⟩
  obtain ⟨l1, l2, l3, l4⟩ := k2 t ht
  refine ⟨l1.imp fun r m hrm => ⟨hrm.1, ?_⟩, l2, l3, l4.trans h3⟩
  obtain ⟨y, y1, y2, y3⟩ := hrm.2
  exact ⟨y, y1, y2, y3.trans h2⟩

/-- C127 in numbers: in `f64`, with at most 10 qubits, circuits of at most 1000 gates and at most four measurements, draws further than `2^-30` from the sums in `D` lead to
the certain outcomes, with probabilities and a final state that are off by at most `2^-30`. -/
theorem C127_f64 (A : binary64.Arith fl) (L : StdLib binary64) (hL : L.Accurate binary64.eps) {sizes : List ℕ}
    (hpos : ∀ k ∈ sizes, 0 < k) {acts : List Act} (hT : ∀ a ∈ acts, a.Takes (blocks 0 sizes)) (h4 : measures acts ≤ 4)
    {out : List Reg × List ℕ} {s : LocalBuilder} (h : mainProg sizes acts LocalBuilder.default = .ok out s) (hn : s.n ≤ 10) (hg : circuitCost s.pipeline ≤ 64000)
    (it : List (Reg × ℕ)) (hit : ∀ p ∈ it, p.1 ∈ blocks 0 sizes) (c : List (List ℕ × ObjTypeP binary64))
    (hm : List.Forall₂ Meant c s.pipeline) (hw : ∀ e ∈ c, e.2.Within 1) {D : Set ℝ} {ms : List ℕ} {χ : Wave}
    (hS : ActsSure D (blocks 0 sizes) acts (ket (initAsg it)) ms χ) :
    ∃ (els : List (ElemP A.Num)) (x : ℕ), c.mapM (elemP A L) = .ok (els.map elemOf) ∧ initialIndex s.n it = some x ∧
      CertainRuns A s.n els x D ms χ (1 / 2 ^ 30) (1 / 2 ^ 30) (1 / 2 ^ 30) := by
  obtain ⟨b1, -⟩ := C123_bound s.n (circuitCost s.pipeline) hn hg
  have hlen : ms.length ≤ 4 := by
    rw [(main_sure sizes hpos acts hT (init_clean it hit) hS h).length, (main_facts hpos hT h it hit).2.2.1]
    exact h4
  have he : binary64.eps = (2 : ℝ)⁻¹ ^ 53 := rfl
  have hG : (circuitCost s.pipeline : ℝ) ≤ 64000 := by exact_mod_cast hg
  have hG0 : (0 : ℝ) ≤ circuitCost s.pipeline := by positivity
  have h2n : (2 : ℝ) ^ s.n ≤ 2 ^ 10 := pow_le_pow_right₀ (by norm_num) hn
  have h2p : (0 : ℝ) < 2 ^ s.n := by positivity
  have hJ : (ms.length : ℝ) ≤ 4 := by exact_mod_cast hlen
  have hP : (2 : ℝ) ^ ms.length ≤ 2 ^ 4 := pow_le_pow_right₀ (by norm_num) hlen
  have hX : (circuitCost s.pipeline : ℝ) + 13 * ms.length * 2 ^ s.n ≤ 64000 + 13 * 4 * 2 ^ 10 := by
    have := mul_le_mul hJ h2n h2p.le (by norm_num)
    nlinarith
  have hB : 2 ^ ms.length * (((circuitCost s.pipeline : ℝ) + 13 * ms.length * 2 ^ s.n) * binary64.eps) ≤ 2 ^ 4 * ((64000 + 13 * 4 * 2 ^ 10) * (2 : ℝ)⁻¹ ^ 53) := by
    rw [he]
    exact mul_le_mul hP (mul_le_mul_of_nonneg_right hX (by positivity)) (by positivity) (by positivity)
  obtain ⟨els, x, k1, k2, k3⟩ := C127_programs A (C88_formats 2).2.2.1.1 (C88_formats 2).2.2.1.2 L hL hpos hT h it hit b1 c hm hw hS _ hB (by norm_num)
  refine ⟨els, x, k1, k2, CertainRuns.mono k3 ?_ ?_ ?_⟩
  · rw [he]; norm_num at h2n ⊢; linarith
  · rw [he]; norm_num at h2n ⊢; linarith
  · norm_num

/-! ## which programs are certain of their outcomes -/

theorem ActsSure.mono {D D' : Set ℝ} (hD : D ⊆ D') {rs : List Reg} {acts : List Act} {ψ χ : Wave} {ms : List ℕ} (h : ActsSure D rs acts ψ ms χ) :
    ActsSure D' rs acts ψ ms χ := by
  induction h with
  | nil ψ => exact .nil ψ
  | run p as ψ ms χ _ ih => exact .run p as ψ ms χ ih
  | measure i as ψ m ms χ h1 h2 _ ih => exact .measure i as ψ m ms χ h1 (fun n k hk => hD (h2 n k hk)) ih

theorem proj_le (r : Reg) (m : ℕ) (ψ : Wave) : normW (projW r m ψ) ≤ normW ψ := by
  by_cases hm : m < 2 ^ r.length
  · rw [← normW_proj_sum r ψ]
    exact single_le_sum (f := fun m => normW (projW r m ψ)) (fun _ _ => normW_nonneg _) (mem_range.mpr hm)
  · rw [projW_big r m (by omega), normW_zero]
    exact normW_nonneg _

/-- a register that holds `m` with certainty -/
theorem proj_sure (r : Reg) (m : ℕ) (ψ : Wave) (h : normW ψ ≤ normW (projW r m ψ)) : ∀ y ∈ ψ.support, valQ r y = m := by
  intro y hy
  by_contra hne
  by_cases hm : m < 2 ^ r.length
  swap
  · rw [projW_big r m (by omega), normW_zero] at h
    have := normW_eq_zero (le_antisymm h (normW_nonneg ψ))
    rw [this] at hy
    simp at hy
  have h2 : normW (projW r m ψ) + normW (projW r (valQ r y) ψ) ≤ normW ψ := by
    rw [← normW_proj_sum r ψ, ← add_sum_erase _ _ (mem_range.mpr hm)]
    refine add_le_add le_rfl (single_le_sum (f := fun m => normW (projW r m ψ)) (fun _ _ => normW_nonneg _) (mem_erase.mpr ⟨hne, mem_range.mpr (valQ_lt r y)⟩))
  have h3 := normW_eq_zero (le_antisymm (show normW (projW r (valQ r y) ψ) ≤ 0 by linarith) (normW_nonneg _))
  have h4 := DFunLike.congr_fun h3 y
  rw [projW_apply, if_pos rfl] at h4
  exact (Finsupp.mem_support_iff.mp hy) h4

/-- the sums of a state are finitely many -/
theorem sums_finite (ψ : Wave) : {S : ℝ | ∃ n k, k ≤ 2 ^ n ∧ S = ∑ i ∈ range k, Complex.normSq (ψ (asg n i))}.Finite := by
  classical
  refine Set.Finite.subset (ψ.support.powerset.image fun T => ∑ y ∈ T, Complex.normSq (ψ y)).finite_toSet ?_
  rintro S ⟨n, k, hk, rfl⟩
  refine mem_coe.mpr (mem_image.mpr ⟨((range k).image (asg n)).filter (· ∈ ψ.support), mem_powerset.mpr fun y hy => (mem_filter.mp hy).2, ?_⟩)
  rw [sum_filter_of_ne, sum_image]
  · intro i hi j hj e
    exact asg_inj n i j (by have := mem_range.mp hi; omega) (by have := mem_range.mp hj; omega) e
  · intro y _ hy
    rw [Finsupp.mem_support_iff]
    intro h0
    exact hy (by rw [h0, map_zero])

theorem acts_le (rs : List Reg) (hn : rs.flatten.Nodup) (acts : List Act) (hT : ∀ a ∈ acts, a.Takes rs) (ms : List ℕ) (ψ : Wave) :
    normW (actsW rs acts ms ψ) ≤ normW ψ := by
  induction acts generalizing ms ψ with
  | nil => exact le_rfl
  | cons a as ih =>
    have hT' : ∀ a ∈ as, a.Takes rs := fun a ha => hT a (by simp [ha])
    cases a with
    | run p =>
      rw [← C107_unitary p rs (hT (.run p) (by simp)) hn ψ]
      exact ih hT' ms _
    | measure i =>
      cases ms with
      | nil =>
        show normW 0 ≤ _
        rw [normW_zero]
        exact normW_nonneg ψ
      | cons m ms => exact (ih hT' ms _).trans (proj_le _ _ _)

/-- C127: these are all programs of which quantum mechanics predicts the outcomes with certainty. If the outcomes `ms` leave the whole of the state `ψ`, the program is one
of those above, with a finite set of places that draws have to avoid; the state at its end is the one that quantum mechanics predicts. The converse holds as well. -/
theorem C127_certain (rs : List Reg) (hn : rs.flatten.Nodup) (acts : List Act) (hT : ∀ a ∈ acts, a.Takes rs) (ms : List ℕ) (hl : ms.length = measures acts) (ψ χ : Wave) :
    (normW (actsW rs acts ms ψ) = normW ψ ∧ actsW rs acts ms ψ = χ) ↔ ∃ D : Set ℝ, D.Finite ∧ ActsSure D rs acts ψ ms χ := by
  constructor
  · rintro ⟨h, rfl⟩
    induction acts generalizing ms ψ with
    | nil =>
      obtain rfl := List.length_eq_zero_iff.mp hl
      exact ⟨∅, Set.finite_empty, .nil ψ⟩
    | cons a as ih =>
      have hT' : ∀ a ∈ as, a.Takes rs := fun a ha => hT a (by simp [ha])
      cases a with
      | run p =>
        obtain ⟨D, d1, d2⟩ := ih hT' ms hl (Finsupp.linearCombination ℂ (p.wave false rs) ψ) (by
          rw [C107_unitary p rs (hT (.run p) (by simp)) hn ψ]
          exact h)
        exact ⟨D, d1, .run p as ψ ms _ d2⟩
      | measure i =>
        cases ms with
        | nil => simp [measures] at hl
        | cons m ms =>
          simp only [actsW] at h ⊢
          have h1 := acts_le rs hn as hT' ms (projW (rs.getD i []) m ψ)
          have hs := proj_sure (rs.getD i []) m ψ (by linarith)
          have hp : projW (rs.getD i []) m ψ = ψ := projW_on (on_iff.mpr hs)
          rw [hp] at h ⊢
          obtain ⟨D, d1, d2⟩ := ih hT' ms (by simpa [measures] using hl) ψ h
          exact ⟨D ∪ {S : ℝ | ∃ n k, k ≤ 2 ^ n ∧ S = ∑ i ∈ range k, Complex.normSq (ψ (asg n i))}, d1.union (sums_finite ψ),
            .measure i as ψ m ms _ hs (fun n k hk => .inr ⟨n, k, hk, rfl⟩) (ActsSure.mono Set.subset_union_left d2)⟩
  · rintro ⟨D, -, h⟩
    induction h with
    | nil ψ => exact ⟨rfl, rfl⟩
    | run p as ψ ms χ _ ih =>
      have := ih (fun a ha => hT a (by simp [ha])) hl
      rw [C107_unitary p rs (hT (.run p) (by simp)) hn ψ] at this
      exact this
    | measure i as ψ m ms χ h1 _ _ ih =>
      have hp : projW (rs.getD i []) m ψ = ψ := projW_on (on_iff.mpr h1)
      simp only [actsW]
      rw [hp]
      exact ih (fun a ha => hT a (by simp [ha])) (by simpa [measures] using hl)

/-! ## basis states -/

theorem sum_asg (n k : ℕ) (hk : k ≤ 2 ^ n) (y : Asg) (a : ℝ) [∀ i, Decidable (asg n i = y)] :
    ∑ i ∈ range k, (if asg n i = y then a else 0) = 0 ∨ ∑ i ∈ range k, (if asg n i = y then a else 0) = a := by
  by_cases h : ∃ j, j < k ∧ asg n j = y
  · right
    obtain ⟨j, hj, e⟩ := h
    rw [sum_eq_single j]
    · rw [if_pos e]
    · intro i hi hne
      exact if_neg fun e' => hne (asg_inj n i j (by have := mem_range.mp hi; omega) (by omega) (e'.trans e.symm))
    · intro hc
      exact absurd (mem_range.mpr hj) hc
  · left
    exact sum_eq_zero fun i hi => if_neg fun e => h ⟨i, mem_range.mp hi, e⟩

/-- the sums of a basis state -/
theorem ket_sums (y : Asg) (n k : ℕ) (hk : k ≤ 2 ^ n) : ∑ i ∈ range k, Complex.normSq (ket y (asg n i)) ∈ ({0, 1} : Set ℝ) := by
  classical
  have : ∀ i, Complex.normSq (ket y (asg n i)) = if asg n i = y then 1 else 0 := by
    intro i
    unfold ket
    rw [Finsupp.single_apply]
    by_cases h : asg n i = y
    · rw [if_pos h.symm, if_pos h, map_one]
    · rw [if_neg h, if_neg fun e => h e.symm, map_zero]
  rw [sum_congr rfl fun i _ => this i]
  exact sum_asg n k hk y 1

theorem ActsSure.ket {D : Set ℝ} (hD : {0, 1} ⊆ D) {rs : List Reg} {i : ℕ} {as : List Act} {y : Asg} {ms : List ℕ} {χ : Wave} (h : ActsSure D rs as (ket y) ms χ) :
    ActsSure D rs (.measure i :: as) (ket y) (valQ (rs.getD i []) y :: ms) χ := by
  refine .measure i as _ _ ms χ (fun z hz => ?_) (fun n k hk => hD (ket_sums y n k hk)) h
  rw [Finset.mem_singleton.mp (Finsupp.support_single_subset hz)]

/-- C127: an oracle for any function `g`, with the input `v`: input and output are measured, and all runs with draws away from 0 and 1 report `v` and `g v`. -/
theorem C127_oracle (A : binary64.Arith fl) (L : StdLib binary64) (hL : L.Accurate binary64.eps) {n : ℕ} (hn : 0 < n) {g : ℕ → Bool} {o : Prog} (ho : Computes n g o) {v : ℕ}
    (hv : v < 2 ^ n) {out : List Reg × List ℕ} {s : LocalBuilder} (h : mainProg [n, 1] [.run o, .measure 0, .measure 1] LocalBuilder.default = .ok out s)
    (hs : s.n ≤ 10) (hg : circuitCost s.pipeline ≤ 64000) (c : List (List ℕ × ObjTypeP binary64)) (hm : List.Forall₂ Meant c s.pipeline)
    (hw : ∀ e ∈ c, e.2.Within 1) :
    ∃ (els : List (ElemP A.Num)) (x : ℕ) (y : Asg), c.mapM (elemP A L) = .ok (els.map elemOf) ∧ initialIndex s.n [(List.range n, v)] = some x ∧
      CertainRuns A s.n els x {0, 1} [v, (g v).toNat] (ket y) (1 / 2 ^ 30) (1 / 2 ^ 30) (1 / 2 ^ 30) := by
  have hT : ∀ a ∈ [Act.run o, .measure 0, .measure 1], a.Takes (blocks 0 [n, 1]) := by
    rw [blocks_query]
    intro a ha
    simp only [List.mem_cons, List.not_mem_nil, or_false] at ha
    rcases ha with rfl | rfl | rfl
    · exact ho.takes
    · exact Nat.zero_lt_two
    · exact Nat.one_lt_two
  have hval := valQ_init (List.range n) List.nodup_range v [(List.range n, v)] (by simp) (by simp)
  rw [List.length_range, Nat.mod_eq_of_lt hv] at hval
  have h0 : initAsg [(List.range n, v)] n = false := by
    classical
    unfold initAsg
    refine decide_eq_false ?_
    rintro ⟨p, hp, k, hk, -⟩
    rw [List.mem_singleton] at hp
    subst hp
    have := List.mem_of_getElem? hk
    simp at this
  have e : Finsupp.linearCombination ℂ (o.wave false (blocks 0 [n, 1])) (ket (initAsg [(List.range n, v)])) = ket (setQ n (g v) (initAsg [(List.range n, v)])) := by
    rw [lift_eq, lift_ket, blocks_query, ho.wave, hval, h0, Bool.false_xor]
  have v0 : valQ (([List.range n, [n]] : List Reg).getD 0 []) (setQ n (g v) (initAsg [(List.range n, v)])) = v := by
    show valQ (List.range n) _ = v
    rw [← hval]
    refine valQ_congr _ _ _ fun q hq => ?_
    rw [setQ_ne (by have := List.mem_range.mp hq; omega), hval]
  have v1 : valQ (([List.range n, [n]] : List Reg).getD 1 []) (setQ n (g v) (initAsg [(List.range n, v)])) = (g v).toNat := by
    show valQ [n] _ = _
    cases g v <;> simp [valQ, setQ]
  have hS : ActsSure {0, 1} (blocks 0 [n, 1]) [.run o, .measure 0, .measure 1] (ket (initAsg [(List.range n, v)])) [v, (g v).toNat]
      (ket (setQ n (g v) (initAsg [(List.range n, v)]))) := by
    refine .run _ _ _ _ _ ?_
    rw [e]
    have := ActsSure.ket (D := {0, 1}) le_rfl (i := 0) (ActsSure.ket (D := {0, 1}) le_rfl (i := 1)
      (ActsSure.nil (rs := blocks 0 [n, 1]) (ket (setQ n (g v) (initAsg [(List.range n, v)])))))
    rw [blocks_query, v0, v1] at this
    rwa [blocks_query]
  obtain ⟨els, x, k1, k2, k3⟩ := C127_f64 A L hL (by simp [hn]) hT (by show 2 ≤ 4; norm_num) h hs hg [(List.range n, v)] (by rw [blocks_query]; simp) c hm hw hS
  exact ⟨els, x, _, k1, k2, k3⟩

/-- C127: the adder with `n` carries. The registers are set to `v` and `w`, the sum is computed, then all registers are measured. All runs with draws away from 0 and 1 report 0,
`v` and `v + w` modulo `2^(n+1)`. -/
theorem C127_add (A : binary64.Arith fl) (L : StdLib binary64) (hL : L.Accurate binary64.eps) {n : ℕ} (hn : 0 < n) {v w : ℕ} (hv : v < 2 ^ n) (hw2 : w < 2 ^ (n + 1))
    {out : List Reg × List ℕ} {s : LocalBuilder}
    (h : mainProg [n, n, n + 1] [.run (.call .add), .measure 0, .measure 1, .measure 2] LocalBuilder.default = .ok out s)
    (hs : s.n ≤ 10) (hg : circuitCost s.pipeline ≤ 64000) (c : List (List ℕ × ObjTypeP binary64)) (hm : List.Forall₂ Meant c s.pipeline)
    (hw : ∀ e ∈ c, e.2.Within 1) :
    ∃ (els : List (ElemP A.Num)) (x : ℕ) (y : Asg), c.mapM (elemP A L) = .ok (els.map elemOf) ∧
      initialIndex s.n [(List.range' n n, v), (List.range' (n + n) (n + 1), w)] = some x ∧
      CertainRuns A s.n els x {0, 1} [0, v, (v + w) % 2 ^ (n + 1)] (ket y) (1 / 2 ^ 30) (1 / 2 ^ 30) (1 / 2 ^ 30) := by
  obtain ⟨k, rfl⟩ : ∃ k, n = k + 1 := ⟨n - 1, by omega⟩
  set ra := List.range' (k + 1) (k + 1) with hra
  set rb := List.range' (k + 1 + (k + 1)) (k + 1 + 1) with hrb
  have hbl : blocks 0 [k + 1, k + 1, k + 1 + 1] = [0 :: List.range' 1 k, ra, rb] := by
    show [List.range' 0 (k + 1), List.range' (0 + (k + 1)) (k + 1), List.range' (0 + (k + 1) + (k + 1)) (k + 1 + 1)] = _
    rw [Nat.zero_add, List.range'_succ]
  have hna : ra.Nodup := List.nodup_range'
  have hnb : rb.Nodup := List.nodup_range'
  have la : ra.length = (List.range' 1 k).length + 1 := by simp [hra]
  have lb : rb.length = (List.range' 1 k).length + 2 := by simp [hrb]
  have hab : List.Disjoint ra rb := by
    intro q h1 h2
    rw [hra, List.mem_range'_1] at h1
    rw [hrb, List.mem_range'_1] at h2
    omega
  have hcn : ((0 :: List.range' 1 k) ++ ra ++ rb).Nodup := by
    have e : (0 :: List.range' 1 k) ++ ra ++ rb = List.range' 0 (k + 1 + (k + 1) + (k + 1 + 1)) := by
      rw [← List.range'_append_1, ← List.range'_append_1, List.range'_succ, hra, hrb]
      simp
    rw [e]
    exact List.nodup_range'
  have hT : ∀ a ∈ [Act.run (.call .add), .measure 0, .measure 1, .measure 2], a.Takes (blocks 0 [k + 1, k + 1, k + 1 + 1]) := by
    rw [hbl]
    intro a ha
    simp only [List.mem_cons, List.not_mem_nil, or_false] at ha
    rcases ha with rfl | rfl | rfl | rfl
    · exact ⟨rfl, List.cons_ne_nil _ _, by rw [la]; rfl, by rw [lb]; rfl⟩
    · show 0 < 3; norm_num
    · show 1 < 3; norm_num
    · show 2 < 3; norm_num
  set it : List (Reg × ℕ) := [(ra, v), (rb, w)] with hit
  have ea : valQ ra (initAsg it) = v := by
    rw [valQ_init ra hna v it (by simp [hit]) (by
      intro p hp hne
      simp only [hit, List.mem_cons, List.not_mem_nil, or_false] at hp
      rcases hp with rfl | rfl
      · exact absurd rfl hne
      · exact hab), hra, List.length_range', Nat.mod_eq_of_lt hv]
  have eb : valQ rb (initAsg it) = w := by
    rw [valQ_init rb hnb w it (by simp [hit]) (by
      intro p hp hne
      simp only [hit, List.mem_cons, List.not_mem_nil, or_false] at hp
      rcases hp with rfl | rfl
      · exact hab.symm
      · exact absurd rfl hne), hrb, List.length_range', Nat.mod_eq_of_lt hw2]
  have e0 : ∀ q, q < k + 1 → initAsg it q = false := by
    classical
    intro q hq
    unfold initAsg
    refine decide_eq_false ?_
    rintro ⟨p, hp, j, hj, -⟩
    have hj := List.mem_of_getElem? hj
    simp only [hit, List.mem_cons, List.not_mem_nil, or_false] at hp
    rcases hp with rfl | rfl
    · rw [hra, List.mem_range'_1] at hj; omega
    · rw [hrb, List.mem_range'_1] at hj; omega
  obtain ⟨s1, s2⟩ := add_value 0 (List.range' 1 k) ra rb hcn la lb (initAsg it) (fun q hq => e0 q (by rw [List.mem_range'_1] at hq; omega))
  rw [ea, eb, e0 0 (by omega), Bool.toNat_false, Nat.add_zero, lb, List.length_range', Nat.add_comm w v] at s1
  set y := addMap (0 :: List.range' 1 k) ra rb (initAsg it) with hy
  have v0 : valQ (0 :: List.range' 1 k) y = 0 := by
    rw [valQ_congr _ y (fun _ => false) fun q hq => ?_]
    · apply Nat.eq_of_testBit_eq
      intro i
      rw [testBit_valQ]
      split <;> simp
    · have hq' : q < k + 1 := by
        rcases List.mem_cons.mp hq with rfl | hq
        · omega
        · rw [List.mem_range'_1] at hq; omega
      rw [s2 q (by rw [hrb, List.mem_range'_1]; omega), e0 q hq']
  have v1 : valQ ra y = v := by
    rw [← ea]
    exact valQ_congr _ _ _ fun q hq => s2 q fun hq' => hab hq hq'
  have hS : ActsSure {0, 1} (blocks 0 [k + 1, k + 1, k + 1 + 1]) [.run (.call .add), .measure 0, .measure 1, .measure 2] (ket (initAsg it))
      [0, v, (v + w) % 2 ^ (k + 1 + 1)] (ket y) := by
    refine .run _ _ _ _ _ ?_
    have e : Finsupp.linearCombination ℂ (Prog.wave (.call .add) false (blocks 0 [k + 1, k + 1, k + 1 + 1])) (ket (initAsg it)) = ket y := by
      rw [lift_eq, lift_ket, hbl]
      rfl
    rw [e]
    have := ActsSure.ket (D := {0, 1}) le_rfl (i := 0) (ActsSure.ket (D := {0, 1}) le_rfl (i := 1) (ActsSure.ket (D := {0, 1}) le_rfl (i := 2)
      (ActsSure.nil (rs := blocks 0 [k + 1, k + 1, k + 1 + 1]) (ket y))))
    rw [hbl] at this ⊢
    rw [show ([0 :: List.range' 1 k, ra, rb] : List Reg).getD 0 [] = 0 :: List.range' 1 k from rfl,
      show ([0 :: List.range' 1 k, ra, rb] : List Reg).getD 1 [] = ra from rfl, show ([0 :: List.range' 1 k, ra, rb] : List Reg).getD 2 [] = rb from rfl,
      v0, v1, s1] at this
    exact this
  obtain ⟨els, x, k1, k2, k3⟩ := C127_f64 A L hL (by simp) hT (by show 3 ≤ 4; norm_num) h hs hg it (by rw [hbl]; simp [hit]) c hm hw hS
  exact ⟨els, x, y, k1, k2, k3⟩

/-! ## Bernstein and Vazirani -/

theorem minus_sums (n u m k : ℕ) (hk : k ≤ 2 ^ m) : ∑ i ∈ range k, Complex.normSq (minusW n u (asg m i)) ∈ ({0, 1 / 2, 1} : Set ℝ) := by
  classical
  set y0 := putVal (List.range n) u fun _ => false with h0
  set y1 := putVal (List.range n) u (setQ n true fun _ => false) with h1
  have hne : y0 ≠ y1 := fun h => by
    have := congrFun h n
    simp [h0, h1, putVal, setQ] at this
  have hc : Complex.normSq (1 / (Real.sqrt 2 : ℂ)) = 1 / 2 := by
    rw [← Complex.ofReal_one, ← Complex.ofReal_div, Complex.normSq_ofReal, div_mul_div_comm, one_mul, Real.mul_self_sqrt (by norm_num)]
  have e : ∀ i, Complex.normSq (minusW n u (asg m i)) = (if asg m i = y0 then 1 / 2 else 0) + (if asg m i = y1 then 1 / 2 else 0) := by
    intro i
    unfold minusW ket
    rw [Finsupp.smul_apply, Finsupp.sub_apply, Finsupp.single_apply, Finsupp.single_apply, smul_eq_mul, map_mul, hc]
    by_cases a : asg m i = y0
    · rw [if_pos a.symm, if_neg fun e => hne (a.symm.trans e.symm), if_pos a, if_neg fun e => hne (a.symm.trans e)]
      norm_num
    · rw [if_neg fun e => a e.symm, if_neg a]
      by_cases b : asg m i = y1
      · rw [if_pos b.symm, if_pos b]; norm_num
      · rw [if_neg fun e => b e.symm, if_neg b]; norm_num
  rw [sum_congr rfl fun i _ => e i, sum_add_distrib]
  rcases sum_asg m k hk y0 (1 / 2) with a | a <;> rcases sum_asg m k hk y1 (1 / 2) with b | b <;> rw [a, b] <;> norm_num

/-- the query program with a certain outcome leaves this state -/
theorem query_certain {n : ℕ} (hn : 0 < n) {g : ℕ → Bool} {o : Prog} (ho : Computes n g o) {a : ℕ} (ha : a < 2 ^ n) (h : queryProb n g a = 1) :
    ∃ u : ℂ, Complex.normSq u = 1 ∧ (queryProg o).wave false [List.range n, [n]] (fun _ => false) = u • minusW n a := by
  have hq : ∀ v, Complex.normSq ((∑ u ∈ range (2 ^ n), (-1 : ℂ) ^ ((g u).toNat + dot n u v)) / 2 ^ n) = queryProb n g v := by
    intro v
    have : (∑ u ∈ range (2 ^ n), (-1 : ℂ) ^ ((g u).toNat + dot n u v)) / 2 ^ n =
        (((∑ u ∈ range (2 ^ n), (-1 : ℝ) ^ ((g u).toNat + dot n u v)) / 2 ^ n : ℝ) : ℂ) := by push_cast; rfl
    rw [this, Complex.normSq_ofReal, queryProb, sq]
  refine ⟨_, (hq a).trans h, ?_⟩
  rw [query_wave ho, sum_eq_single a]
  · intro v hv hne
    rw [show (∑ u ∈ range (2 ^ n), (-1 : ℂ) ^ ((g u).toNat + dot n u v)) / 2 ^ n = 0 from ?_, zero_smul]
    rw [← Complex.normSq_eq_zero, hq]
    by_contra hc
    have hp : 0 ≤ queryProb n g v := by unfold queryProb; positivity
    exact hne (queryProb_unique hn ho ha (mem_range.mp hv) h (lt_of_le_of_ne hp (Ne.symm hc)))
  · intro hc
    exact absurd (mem_range.mpr ha) hc

/-- C127: the query program, if its outcome is certain: all runs with draws away from 0, 1/2 and 1 report it. -/
theorem C127_query (A : binary64.Arith fl) (L : StdLib binary64) (hL : L.Accurate binary64.eps) {n : ℕ} (hn : 0 < n) {g : ℕ → Bool} {o : Prog} (ho : Computes n g o) {a : ℕ}
    (ha : a < 2 ^ n) (h1 : ((∑ u ∈ range (2 ^ n), (-1 : ℝ) ^ ((g u).toNat + dot n u a)) / 2 ^ n) ^ 2 = 1)
    {out : List Reg × List ℕ} {s : LocalBuilder} (h : mainProg [n, 1] (queryActs o) LocalBuilder.default = .ok out s)
    (hs : s.n ≤ 10) (hg : circuitCost s.pipeline ≤ 64000) (c : List (List ℕ × ObjTypeP binary64)) (hm : List.Forall₂ Meant c s.pipeline) (hw : ∀ e ∈ c, e.2.Within 1) :
    ∃ (els : List (ElemP A.Num)) (χ : Wave), c.mapM (elemP A L) = .ok (els.map elemOf) ∧
      CertainRuns A s.n els 0 {0, 1 / 2, 1} [a] χ (1 / 2 ^ 30) (1 / 2 ^ 30) (1 / 2 ^ 30) := by
  obtain ⟨u, u1, u2⟩ := query_certain hn ho ha h1
  have hi : initAsg [] = fun _ => false := by funext q; simp [initAsg]
  have hon : ∀ y ∈ (u • minusW n a).support, valQ (([List.range n, [n]] : List Reg).getD 0 []) y = a := on_iff.mp ((minus_on n a ha).smul u)
  have hS : ActsSure {0, 1 / 2, 1} (blocks 0 [n, 1]) (queryActs o) (ket (initAsg [])) [a] (u • minusW n a) := by
    rw [blocks_query, hi]
    refine .run _ _ _ _ _ ?_
    rw [lift_eq, lift_ket, u2]
    refine .measure 0 _ _ _ _ _ hon (fun m k hk => ?_) (.nil _)
    rw [sum_congr rfl fun i _ => by rw [Finsupp.smul_apply, smul_eq_mul, map_mul, u1, one_mul]]
    exact minus_sums n a m k hk
  obtain ⟨els, x, k1, k2, k3⟩ := C127_f64 A L hL (by simp [hn]) (queryActs_takes hn ho) (by show 1 ≤ 4; norm_num) h hs hg [] (by simp) c hm hw hS
  obtain rfl : 0 = x := Option.some.inj k2
  exact ⟨els, _, k1, k3⟩

/-- C127, Bernstein and Vazirani: all runs with draws away from 0, 1/2 and 1 report `a`. -/
theorem C127_bernstein_vazirani (A : binary64.Arith fl) (L : StdLib binary64) (hL : L.Accurate binary64.eps) {n : ℕ} (hn : 0 < n) {a : ℕ} (ha : a < 2 ^ n) {o : Prog}
    (ho : Computes n (fun u => decide (dot n u a % 2 = 1)) o) {out : List Reg × List ℕ} {s : LocalBuilder}
    (h : mainProg [n, 1] (queryActs o) LocalBuilder.default = .ok out s) (hs : s.n ≤ 10) (hg : circuitCost s.pipeline ≤ 64000)
    (c : List (List ℕ × ObjTypeP binary64)) (hm : List.Forall₂ Meant c s.pipeline) (hw : ∀ e ∈ c, e.2.Within 1) :
    ∃ (els : List (ElemP A.Num)) (χ : Wave), c.mapM (elemP A L) = .ok (els.map elemOf) ∧
      CertainRuns A s.n els 0 {0, 1 / 2, 1} [a] χ (1 / 2 ^ 30) (1 / 2 ^ 30) (1 / 2 ^ 30) := by
  refine C127_query A L hL hn ho ha ?_ h hs hg c hm hw
  rw [sum_signs fun u _ => ?_, div_self (by positivity), one_pow]
  rcases Nat.mod_two_eq_zero_or_one (dot n u a) with h | h <;> simp [h, Nat.add_mod]

/-- C127, Deutsch and Jozsa: if the function is constant, all runs with draws away from 0, 1/2 and 1 report 0. -/
theorem C127_deutsch_jozsa (A : binary64.Arith fl) (L : StdLib binary64) (hL : L.Accurate binary64.eps) {n : ℕ} (hn : 0 < n) {g : ℕ → Bool} {o : Prog}
    (ho : Computes n g o) (hcst : ∃ b, ∀ u < 2 ^ n, g u = b) {out : List Reg × List ℕ} {s : LocalBuilder}
    (h : mainProg [n, 1] (queryActs o) LocalBuilder.default = .ok out s) (hs : s.n ≤ 10) (hg : circuitCost s.pipeline ≤ 64000)
    (c : List (List ℕ × ObjTypeP binary64)) (hm : List.Forall₂ Meant c s.pipeline) (hw : ∀ e ∈ c, e.2.Within 1) :
    ∃ (els : List (ElemP A.Num)) (χ : Wave), c.mapM (elemP A L) = .ok (els.map elemOf) ∧
      CertainRuns A s.n els 0 {0, 1 / 2, 1} [0] χ (1 / 2 ^ 30) (1 / 2 ^ 30) (1 / 2 ^ 30) := by
  refine C127_query A L hL hn ho (by positivity) ?_ h hs hg c hm hw
  obtain ⟨b, hb⟩ := hcst
  have hd : ∀ u, dot n u 0 = 0 := fun u => by simp [dot]
  simp only [hd, add_zero]
  rw [sum_congr rfl fun u hu => by rw [hb u (mem_range.mp hu)], sum_const, card_range, nsmul_eq_mul, Nat.cast_pow,
    Nat.cast_ofNat, mul_div_cancel_left₀ _ (by positivity)]
  cases b <;> simp

/-! ## examples -/

/-- `3 + 2 = 5` with the adder, in `f64`, for all draws between `2^-29` and `1 - 2^-29`: three qubits for the sum, superpositions in the Toffoli gates of the carries -/
example (A : binary64.Arith fl) : ∃ (n : ℕ) (els : List (ElemP A.Num)) (x : ℕ), ∀ (rnds : ℕ → binary64.Fin),
    (∀ k, 1 / 2 ^ 29 ≤ (rnds k).1 ∧ (rnds k).1 ≤ 1 - 1 / 2 ^ 29) →
    (∃ t, RunsP A.prec (fun c : A.Num => c) (fun c => c) n (fun k => some (rnds k)) els ⟨(List.replicate (2 ^ n) 0).set x 1, List.replicate (2 ^ n) 0, []⟩ t) ∧
    ∀ t, RunsP A.prec (fun c : A.Num => c) (fun c => c) n (fun k => some (rnds k)) els ⟨(List.replicate (2 ^ n) 0).set x 1, List.replicate (2 ^ n) 0, []⟩ t →
      t.measurements.map Prod.fst = [0, 3, 5] := by
  obtain ⟨s, c, h1, h2, h3, h4, h5⟩ := smallRun_ok (sizes := [2, 2, 3]) (acts := [.run (.call .add), .measure 0, .measure 1, .measure 2]) (by simp) (by
    intro a ha
    simp only [List.mem_cons, List.not_mem_nil, or_false] at ha
    rcases ha with rfl | rfl | rfl | rfl
    · exact ⟨rfl, List.cons_ne_nil _ _, rfl, rfl⟩
    · show 0 < 3; norm_num
    · show 1 < 3; norm_num
    · show 2 < 3; norm_num) (by krfl) A
  obtain ⟨els, x, y, -, -, k⟩ := C127_add A (stdRounded A) (C122_accurate A) (n := 2) (v := 3) (w := 2) (by norm_num) (by norm_num) (by norm_num) h1 h2 h3 c h4 h5
  refine ⟨s.n, els, x, fun rnds hr => ?_⟩
  obtain ⟨k1, k2⟩ := k rnds fun j => by
    obtain ⟨a, b⟩ := hr j
    refine ⟨by linarith [show (0 : ℝ) < 1 / 2 ^ 29 by norm_num], by linarith [show (0 : ℝ) < 1 / 2 ^ 29 by norm_num], ?_⟩
    have : (1 : ℝ) / 2 ^ 30 < 1 / 2 ^ 29 := by norm_num
    rintro d (rfl | rfl)
    · rw [sub_zero, abs_of_nonneg (by linarith)]; linarith
    · rw [abs_of_nonpos (by linarith)]; linarith
  refine ⟨k1, fun t ht => ?_⟩
  have := (k2 t ht).1
  have e : ∀ (l : List (ℕ × binary64.Part)) (ms : List ℕ),
      List.Forall₂ (fun r m => r.1 = m ∧ NearProb binary64 (1 / 2 ^ 30) r.2 1) l ms → l.map Prod.fst = ms := by
    intro l ms h
    induction h with
    | nil => rfl
    | cons a _ ih => rw [List.map_cons, a.1, ih]
  exact e _ _ this

/-- an oracle for a function with Toffoli gates, at the input 3 -/
example (A : binary64.Arith fl) : ∃ (n : ℕ) (els : List (ElemP A.Num)) (x : ℕ) (y : Asg),
    CertainRuns A n els x {0, 1} [3, 1] (ket y) (1 / 2 ^ 30) (1 / 2 ^ 30) (1 / 2 ^ 30) := by
  have ho := (C109_oracles (n := 2) (by norm_num)).1 fun u => u == 3
  obtain ⟨s, c, h1, h2, h3, h4, h5⟩ := smallRun_ok (sizes := [2, 1]) (acts := [.run (tableOracle 2 fun u => u == 3), .measure 0, .measure 1]) (by simp) (by
    intro a ha
    simp only [List.mem_cons, List.not_mem_nil, or_false] at ha
    rcases ha with rfl | rfl | rfl
    · exact ho.takes
    · show 0 < 2; norm_num
    · show 1 < 2; norm_num) (by krfl) A
  obtain ⟨els, x, y, -, -, k⟩ := C127_oracle A (stdRounded A) (C122_accurate A) (by norm_num) ho (v := 3) (by norm_num) h1 h2 h3 c h4 h5
  exact ⟨s.n, els, x, y, k⟩

/-- Bernstein and Vazirani with four qubits and `a = 11` -/
example (A : binary64.Arith fl) : ∃ (n : ℕ) (els : List (ElemP A.Num)) (χ : Wave),
    CertainRuns A n els 0 {0, 1 / 2, 1} [11] χ (1 / 2 ^ 30) (1 / 2 ^ 30) (1 / 2 ^ 30) := by
  have ho := (C109_oracles (n := 4) (by norm_num)).2 11
  obtain ⟨s, c, h1, h2, h3, h4, h5⟩ := smallRun_ok (sizes := [4, 1]) (by simp) (queryActs_takes (by norm_num) ho) (by krfl) A
  obtain ⟨els, χ, -, k⟩ := C127_bernstein_vazirani A (stdRounded A) (C122_accurate A) (by norm_num) (a := 11) (by norm_num) ho h1 h2 h3 c h4 h5
  exact ⟨s.n, els, χ, k⟩

/-- Deutsch and Jozsa with two qubits and the constant 1 -/
example (A : binary64.Arith fl) : ∃ (n : ℕ) (els : List (ElemP A.Num)) (χ : Wave),
    CertainRuns A n els 0 {0, 1 / 2, 1} [0] χ (1 / 2 ^ 30) (1 / 2 ^ 30) (1 / 2 ^ 30) := by
  have ho := (C109_oracles (n := 2) (by norm_num)).1 fun _ => true
  obtain ⟨s, c, h1, h2, h3, h4, h5⟩ := smallRun_ok (sizes := [2, 1]) (by simp) (queryActs_takes (by norm_num) ho) (by krfl) A
  obtain ⟨els, χ, -, k⟩ := C127_deutsch_jozsa A (stdRounded A) (C122_accurate A) (by norm_num) ho ⟨true, fun _ _ => rfl⟩ h1 h2 h3 c h4 h5
  exact ⟨s.n, els, χ, k⟩

/-- the program of Bernstein and Vazirani is certain of its outcome -/
example : ∃ (D : Set ℝ) (χ : Wave), D.Finite ∧ ActsSure D [List.range 4, [4]] (queryActs (parityOracle 4 11)) (ket fun _ => false) [11] χ := by
  have ho := (C109_oracles (n := 4) (by norm_num)).2 11
  have hp : queryProb 4 (fun u => decide (dot 4 u 11 % 2 = 1)) 11 = 1 := by
    unfold queryProb
    rw [sum_signs fun u _ => ?_, div_self (by positivity), one_pow]
    rcases Nat.mod_two_eq_zero_or_one (dot 4 u 11) with h | h <;> simp [h, Nat.add_mod]
  obtain ⟨D, d1, d2⟩ := (C127_certain [List.range 4, [4]] (by decide) (queryActs (parityOracle 4 11)) (by rw [← blocks_query]; exact queryActs_takes (by norm_num) ho) [11] rfl
    (ket fun _ => false) _).mp ⟨by rw [queryActs_norm ho 11 (by norm_num), hp, normW_ket], rfl⟩
  exact ⟨D, _, d1, d2⟩

end Verif.Props
