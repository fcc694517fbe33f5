import Verif.Proofs.Panics
import Verif.Proofs.Calc
import Verif.Proofs.Measure2

/-! # Calculations that panic -/

namespace Verif
open Classical

theorem foldlM_total {α σ : Type} (f : σ → α → Option σ) (l : List α) (h : ∀ a ∈ l, ∀ s, ∃ s', f s a = some s') :
    ∀ s, ∃ s', l.foldlM f s = some s' := by
  induction l with
  | nil => exact fun s => ⟨s, rfl⟩
  | cons a l ih =>
    intro s
    obtain ⟨s1, h1⟩ := h a (by simp) s
    obtain ⟨s2, h2⟩ := ih (fun b hb => h b (by simp [hb])) s1
    exact ⟨s2, by rw [List.foldlM_cons, h1]; exact h2⟩

theorem mapM_total {α γ : Type} (f : α → Option γ) (l : List α) (h : ∀ a ∈ l, ∃ c, f a = some c) : ∃ cs, l.mapM f = some cs := by
  induction l with
  | nil => exact ⟨[], rfl⟩
  | cons a l ih =>
    obtain ⟨c, h1⟩ := h a (by simp)
    obtain ⟨cs, h2⟩ := ih fun b hb => h b (by simp [hb])
    exact ⟨c :: cs, by simp [h1, h2]⟩

theorem mapM_panics {α γ : Type} (f : α → Option γ) (l : List α) (h : ∃ a ∈ l, f a = none) : l.mapM f = none := by
  induction l with
  | nil => simp at h
  | cons a l ih =>
    obtain ⟨b, hb, h1⟩ := h
    rcases List.mem_cons.mp hb with rfl | hb
    · simp [h1]
    · simp [ih ⟨b, hb, h1⟩]

theorem scatterBits_total (n bits : ℕ) (idx : List ℕ) (h : ∀ i ∈ idx, i < n) : ∃ v, scatterBits n bits idx = some v := by
  refine foldlM_total _ _ (fun p hp s => ?_) 0
  have : p.1 < n := h _ (List.fst_mem_of_mem_zipIdx hp)
  rw [bitPos_of_lt this]
  exact ⟨_, rfl⟩

theorem measureProb_total (n m : ℕ) (idx : List ℕ) (h : ∀ i ∈ idx, i < n) (input : List ℂ) : ∃ p, measureProb n m idx input none = some p := by
  unfold measureProb measureProbFn
  obtain ⟨v, h1⟩ := scatterBits_total n m idx h
  simp only [h1, Option.bind_eq_bind, Option.bind_some]
  obtain ⟨cs, h2⟩ := mapM_total (fun bits => (scatterBits n bits ((List.range n).filter (fun i => !idx.contains i))).bind fun tmp =>
    if tmp + v < (none : Option ℕ).getD 0 then some (none : Option ℝ) else
      if (if h : tmp + v - (none : Option ℕ).getD 0 ≥ input.length then 0 else input[tmp + v - (none : Option ℕ).getD 0]'(by omega)) = (0 : ℂ) then some none else
        some (some (Complex.normSq (if h : tmp + v - (none : Option ℕ).getD 0 ≥ input.length then 0 else input[tmp + v - (none : Option ℕ).getD 0]'(by omega)))))
    (List.range (1 <<< ((List.range n).filter (fun i => !idx.contains i)).length)) (by
      intro bits _
      obtain ⟨w, h3⟩ := scatterBits_total n bits ((List.range n).filter (fun i => !idx.contains i))
        (fun i hi => List.mem_range.mp (List.mem_filter.mp hi).1)
      rw [h3, Option.bind_some]
      split
      · exact ⟨_, rfl⟩
      · rw [← apply_ite some]
        exact ⟨_, rfl⟩)
  exact ⟨_, by rw [h2]; rfl⟩

theorem measureState_total (n m : ℕ) (p : ℝ) (idx : List ℕ) (h : ∀ i ∈ idx, i < n) (input output : List ℂ) (hi : input.length = 2 ^ n)
    (ho : output.length = 2 ^ n) : ∃ out, measureState n idx (m, p) input output none = some out ∧ out.length = 2 ^ n := by
  unfold measureState
  simp only [Option.getD_none]
  by_cases hp : p ≠ 0
  · rw [if_pos hp]
    obtain ⟨rm, h1⟩ : ∃ rm, rowMask n idx = some rm := by
      unfold rowMask
      obtain ⟨cs, h1⟩ := mapM_total (fun index => (bitPos n index).bind fun m => some (1 <<< m)) idx fun i hi =>
        ⟨_, by rw [bitPos_of_lt (h i hi)]; rfl⟩
      exact ⟨_, by simp only [Option.bind_eq_bind, h1]; rfl⟩
    obtain ⟨mm, h2⟩ : ∃ mm, measuredMask n m idx = some mm := by
      unfold measuredMask
      obtain ⟨cs, h1⟩ := mapM_total (fun p : ℕ × ℕ => (bitPos n p.1).bind fun k => some (((m >>> p.2) &&& 1) <<< k)) idx.zipIdx fun p hp =>
        ⟨_, by rw [bitPos_of_lt (h _ (List.fst_mem_of_mem_zipIdx hp))]; rfl⟩
      exact ⟨_, by simp only [Option.bind_eq_bind, h1]; rfl⟩
    simp only [h1, h2, Option.bind_eq_bind, Option.bind_some, hi, ho]
    simp [slice, hi, ho, overlay]
  · rw [if_neg hp]
    exact ⟨output, rfl, ho⟩

theorem measure_total (n : ℕ) (idx : List ℕ) (h : ∀ i ∈ idx, i < n) (input output : List ℂ) (hi : input.length = 2 ^ n)
    (ho : output.length = 2 ^ n) (r : ℝ) : ∃ m p out, measure n idx input output none none r = some ((m, p), out) ∧ out.length = 2 ^ n := by
  unfold measure
  obtain ⟨m, h1⟩ : ∃ m, softMeasure n idx input none r = some m := by
    unfold softMeasure
    obtain ⟨cs, h1⟩ := mapM_total (bitPos n) idx fun i hi => ⟨_, bitPos_of_lt (h i hi)⟩
    exact ⟨_, by simp only [Option.bind_eq_bind, h1]; rfl⟩
  obtain ⟨p, h2⟩ := measureProb_total n m idx h input
  obtain ⟨out, h3, h4⟩ := measureState_total n m p idx h input output hi ho
  exact ⟨m, p, out, by simp [h1, h2, h3], h4⟩

theorem unitaryOp_misfit (idx : List ℕ) (u : UObj) (hg : ∀ ρ, u ≠ .GlobalPhase ρ) (hs : ¬ u.Shape idx.length) :
    ∃ e, unitaryOp idx u = .error e := by
  have mat : ∀ data : List ℂ, ¬ (data.length = 4 ^ idx.length ∧ 0 < idx.length) → ∃ e, makeMatrixOp idx data = .error e := by
    intro data h
    unfold makeMatrixOp
    simp only
    by_cases he : idx.isEmpty = true
    · exact ⟨_, if_pos he⟩
    · rw [if_neg he]
      have : 0 < idx.length := List.length_pos_iff.mpr (by simpa using he)
      have h2 : data.length ≠ 1 <<< (2 * idx.length) := by
        rw [Nat.one_shiftLeft, Nat.pow_mul]
        exact fun h' => h ⟨h', this⟩
      exact ⟨_, if_pos h2⟩
  have one : ∀ a b c d : ℂ, idx.length ≠ 1 → ∃ e, makeMatrixOp idx [a, b, c, d] = .error e := by
    intro a b c d h
    refine mat _ ?_
    rintro ⟨h1, h2⟩
    have h3 : (4 : ℕ) ^ 1 = 4 ^ idx.length := h1
    exact h (Nat.pow_right_injective (by norm_num) h3).symm
  cases u with
  | X => exact one _ _ _ _ hs
  | Y => exact one _ _ _ _ hs
  | Z => exact one _ _ _ _ hs
  | H => exact one _ _ _ _ hs
  | S => exact one _ _ _ _ hs
  | T => exact one _ _ _ _ hs
  | Rz r => exact one _ _ _ _ hs
  | GlobalPhase ρ => exact absurd rfl (hg ρ)
  | MAT data => exact mat _ hs
  | CNOT =>
    cases idx with
    | nil => exact ⟨_, rfl⟩
    | cons c rest =>
      unfold unitaryOp
      have : ∃ e, makeMatrixOp rest ([0, 1, 1, 0] : List ℂ) = .error e := by
        have hr : rest.length ≠ 1 := fun h => hs (by simp [UObj.Shape, h])
        unfold makeMatrixOp
        simp only
        by_cases he : rest.isEmpty = true
        · exact ⟨_, if_pos he⟩
        · rw [if_neg he]
          have h2 : ([0, 1, 1, 0] : List ℂ).length ≠ 1 <<< (2 * rest.length) := by
            rw [Nat.one_shiftLeft, Nat.pow_mul]
            intro h1
            have h3 : (4 : ℕ) ^ 1 = 4 ^ rest.length := h1
            exact hr (Nat.pow_right_injective (by norm_num) h3).symm
          exact ⟨_, if_pos h2⟩
      obtain ⟨e, h1⟩ := this
      exact ⟨e, by simp only [h1]; rfl⟩
  | SWAP =>
    unfold unitaryOp
    simp only
    split_ifs with h
    · exact ⟨_, rfl⟩
    · have : idx.length = 0 := by
        simp only [UObj.Shape, not_and_or, not_lt] at hs
        omega
      obtain rfl := List.length_eq_zero_iff.mp this
      exact ⟨_, rfl⟩

theorem calcStep_misfit (n : ℕ) (rnds : ℕ → ℝ) (s : CalcState) (e : List ℕ × CObj) (h : Misfit e) : calcStep n rnds s e = none := by
  obtain ⟨u, h1, h2, h3⟩ := h
  obtain ⟨f, h4⟩ := unitaryOp_misfit e.1 u h2 h3
  unfold calcStep
  rw [h1]
  cases u <;> first | exact absurd rfl (h2 _) | simp only [h4]

theorem calcStep_fits (n : ℕ) (rnds : ℕ → ℝ) (s : CalcState) (e : List ℕ × CObj) (h : ¬ Misfit e) (he : ∀ q ∈ e.1, q < n)
    (h1 : s.state.length = 2 ^ n) (h2 : s.arena.length = 2 ^ n) :
    ∃ s', calcStep n rnds s e = some s' ∧ s'.state.length = 2 ^ n ∧ s'.arena.length = 2 ^ n := by
  unfold calcStep
  cases ho : e.2.object with
  | unitary u =>
    by_cases hg : ∃ ρ, u = .GlobalPhase ρ
    · obtain ⟨ρ, rfl⟩ := hg
      exact ⟨_, rfl, h2, h1⟩
    · have hg' : ∀ ρ, u ≠ .GlobalPhase ρ := fun ρ hρ => hg ⟨ρ, hρ⟩
      have hs : u.Shape e.1.length := by
        by_contra hs
        exact h ⟨u, ho, hg', hs⟩
      obtain ⟨op, o1, o2⟩ := unitaryOp_ok e.1 u hs hg'
      have := applyOpOverwrite_any n op o2.wf (by rw [o2.ind]; exact he) s.state s.arena h1 h2
      cases u <;> first
        | exact absurd rfl (hg' _)
        | (simp only [o1, this, Option.bind_eq_bind, Option.bind_some]
           exact ⟨_, rfl, by simp, h1⟩)
  | meas t =>
    cases t with
    | measurement =>
      obtain ⟨m, p, out, m1, m2⟩ := measure_total n e.1 he s.state s.arena h1 h2 (rnds s.measurements.length)
      simp only [m1, Option.bind_eq_bind, Option.bind_some]
      exact ⟨_, rfl, m2, h1⟩
    | stochastic =>
      have : ∃ ps, measureProbs n e.1 s.state none = some ps := mapM_total _ _ fun m _ => measureProb_total n m e.1 he s.state
      obtain ⟨ps, m1⟩ := this
      simp only [m1, Option.bind_eq_bind, Option.bind_some]
      exact ⟨_, rfl, h2, h1⟩

theorem calcFold_panics (n : ℕ) (rnds : ℕ → ℝ) (p : Pipeline) (hp : ∀ e ∈ p, ∀ q ∈ e.1, q < n) : ∀ s : CalcState,
    s.state.length = 2 ^ n → s.arena.length = 2 ^ n → (calcFold n rnds p s = none ↔ ∃ e ∈ p, Misfit e) := by
  induction p with
  | nil => intro s _ _; simp [calcFold]
  | cons e p ih =>
    intro s h1 h2
    unfold calcFold
    rw [List.foldlM_cons]
    by_cases he : Misfit e
    · rw [calcStep_misfit n rnds s e he]
      simp [he]
    · obtain ⟨s', a, b, c⟩ := calcStep_fits n rnds s e he (hp e (by simp)) h1 h2
      rw [a]
      have := ih (fun e he => hp e (by simp [he])) s' b c
      unfold calcFold at this
      simp only [Option.bind_eq_bind, Option.bind_some, List.mem_cons, exists_eq_or_imp, he, false_or]
      exact this

theorem initialIndex_panics (n : ℕ) (it : List (Reg × ℕ)) (h : ∃ p ∈ it, ∃ q ∈ p.1, n ≤ q) : initialIndex n it = none := by
  unfold initialIndex
  obtain ⟨p, hp, q, hq, hqn⟩ := h
  have : (it.mapM fun p => initBits n p.1 p.2) = none := by
    refine mapM_panics _ _ ⟨p, hp, ?_⟩
    unfold initBits
    obtain ⟨k, hk, rfl⟩ := List.mem_iff_getElem.mp (List.mem_reverse.mpr hq)
    refine mapM_panics _ _ ⟨(p.1.reverse[k], k), by rw [List.mk_mem_zipIdx_iff_getElem?]; exact List.getElem?_eq_getElem hk, ?_⟩
    have : bitPos n p.1.reverse[k] = none := by unfold bitPos; rw [if_neg (by omega)]
    simp only [this, Option.bind_eq_bind, Option.bind_none]
  rw [this]
  rfl

theorem calculate_panics (b : LocalBuilder) (hb : ∀ e ∈ b.pipeline, ∀ q ∈ e.1, q < b.n) (it : List (Reg × ℕ)) (rnds : ℕ → ℝ) :
    b.calculateStateWithInit it rnds = none ↔ (∃ p ∈ it, ∃ q ∈ p.1, b.n ≤ q) ∨ ∃ e ∈ b.pipeline, Misfit e := by
  unfold LocalBuilder.calculateStateWithInit
  by_cases h : ∃ p ∈ it, ∃ q ∈ p.1, b.n ≤ q
  · simp [initialIndex_panics b.n it h, h]
  · have h' : ∀ p ∈ it, ∀ q ∈ p.1, q < b.n := fun p hp q hq => by
      by_contra hlt
      exact h ⟨p, hp, q, hq, by omega⟩
    obtain ⟨i, i1, i2, -⟩ := initialIndex_eq b.n it h'
    have := calcFold_panics b.n rnds b.pipeline hb ⟨(List.replicate (2 ^ b.n) 0).set i 1, List.replicate (2 ^ b.n) 0, []⟩ (by simp) (by simp)
    simp only [i1, Option.bind_eq_bind, Option.bind_some, List.length_replicate, Nat.one_shiftLeft, i2, if_true, h, false_or]
    rw [← this]
    cases calcFold b.n rnds b.pipeline ⟨(List.replicate (2 ^ b.n) 0).set i 1, List.replicate (2 ^ b.n) 0, []⟩ <;> simp

/-- `s'` arises from `s` by adding elements whose qubits exist -/
def Within (s s' : LocalBuilder) : Prop :=
  s.n ≤ s'.n ∧ ∃ seg, s'.pipeline = s.pipeline ++ seg ∧ ∀ e ∈ seg, ∀ q ∈ e.1, q < s'.n

theorem Grow.within {s s' : LocalBuilder} {P : List ℕ × CObj → Prop} (h : Grow s s' P) : Within s s' := by
  obtain ⟨a, seg, b, c, -⟩ := h
  exact ⟨a, seg, b, fun e he => (c e he).1.2.1⟩

theorem within_emits {m : M LocalBuilder (List Reg)} {out : List Reg} {seg : Pipeline} (h : Emits m out seg) (s : LocalBuilder)
    (hs : ∀ e ∈ seg, ∀ q ∈ e.1, q < s.n) :
    (∀ out s', m s = .ok out s' → Within s s') ∧ (∀ s', m s = .error .error s' → Within s s') := by
  refine ⟨fun o s' he => ?_, fun s' he => ?_⟩
  · rw [h s] at he
    cases he
    exact ⟨le_refl _, seg, rfl, hs⟩
  · rw [h s] at he; cases he

theorem each_mem {r : Reg} {u : UObj} {e : List ℕ × CObj} (h : e ∈ each r u) {q : ℕ} (hq : q ∈ e.1) : q ∈ r := by
  unfold each at h
  simp only [List.mem_map] at h
  obtain ⟨p, hp, rfl⟩ := h
  simp at hq
  exact hq ▸ hp

theorem Call.within (c : Call) (hc : c.NoRepeat) (s : LocalBuilder) (L : List ℕ) (hne : ∀ r ∈ c.args, r ≠ [])
    (how : Own s (c.args.flatten ++ L)) :
    (∀ out s', c.run s = .ok out s' → Within s s') ∧ (∀ s', c.run s = .error .error s' → Within s s') := by
  by_cases hs : c.Sized
  · obtain ⟨h1, h2⟩ := Call.grows c hc hs s L hne how
    exact ⟨fun o s' h => (h1 o s' h).within, fun s' h => (h2 s' h).within⟩
  have hnn := (how.sub (List.sublist_append_left _ _)).left
  cases c with
  | object r c =>
    have hr := hne r (by simp [Call.args])
    have hlt : ∀ q ∈ r, q < s.n := fun q hq => how.mem_lt (by simp [Call.args, hq])
    simp only [Call.args, List.flatten_cons, List.flatten_nil, List.append_nil] at hnn
    obtain ⟨n, o⟩ := c
    by_cases h1 : n = 1
    · subst h1
      refine within_emits (emits_one (applyCO_one_emits r hr hnn _)) s ?_
      intro e he q hq
      simp only [List.mem_map] at he
      obtain ⟨p, hp, rfl⟩ := he
      simp at hq
      exact hlt q (hq ▸ hp)
    · by_cases h2 : n = r.length
      · refine within_emits (emits_one (applyCO_n_emits r ⟨n, o⟩ h2 h1)) s ?_
        intro e he q hq
        rw [List.mem_singleton] at he
        subst he
        exact hlt q hq
      · have e : (Call.object r ⟨n, o⟩).run s = .error .error s := err_one (applyCO_err r _ h2 h1) s
        refine ⟨fun out s' h => ?_, fun s' h => ?_⟩
        · rw [e] at h; cases h
        · rw [e] at h; cases h; exact ⟨le_refl _, [], by simp, by simp⟩
  | rz r θ =>
    have hlt : ∀ q ∈ r, q < s.n := fun q hq => how.mem_lt (by simp [Call.args, hq])
    refine within_emits (emits_one (rz_emits r θ)) s ?_
    intro e he q hq
    rw [List.mem_singleton] at he
    subst he
    exact hlt q hq
  | rx r θ =>
    have hr := hne r (by simp [Call.args])
    have hlt : ∀ q ∈ r, q < s.n := fun q hq => how.mem_lt (by simp [Call.args, hq])
    simp only [Call.args, List.flatten_cons, List.flatten_nil, List.append_nil] at hnn
    refine within_emits (emits_one (rx_emits r hr hnn _ _ (rz_emits r θ))) s ?_
    intro e he q hq
    simp only [List.mem_append, List.mem_singleton] at he
    rcases he with he | rfl | he
    · exact hlt q (each_mem he hq)
    · exact hlt q hq
    · exact hlt q (each_mem he hq)
  | ry r θ =>
    have hr := hne r (by simp [Call.args])
    have hlt : ∀ q ∈ r, q < s.n := fun q hq => how.mem_lt (by simp [Call.args, hq])
    simp only [Call.args, List.flatten_cons, List.flatten_nil, List.append_nil] at hnn
    refine within_emits (emits_one (ry_emits r hr hnn _ _ (rz_emits r (-θ)))) s ?_
    intro e he q hq
    simp only [List.mem_append, List.mem_singleton] at he
    rcases he with (he | he) | he | rfl | he | he
    · exact hlt q (each_mem he hq)
    · exact hlt q (each_mem he hq)
    · exact hlt q (each_mem he hq)
    · exact hlt q hq
    · exact hlt q (each_mem he hq)
    · exact hlt q (each_mem he hq)
  | rzPiBy r m =>
    have hlt : ∀ q ∈ r, q < s.n := fun q hq => how.mem_lt (by simp [Call.args, hq])
    by_cases hm : m = 0
    · subst hm
      have e : (Call.rzPiBy r 0).run s = .error .error s := err_one (m := LocalBuilder.rzPiBy r 0) (fun s => rfl) s
      refine ⟨fun out s' h => ?_, fun s' h => ?_⟩
      · rw [e] at h; cases h
      · rw [e] at h; cases h; exact ⟨le_refl _, [], by simp, by simp⟩
    · refine within_emits (emits_one (rzPiBy_emits r m hm)) s ?_
      intro e he q hq
      rw [List.mem_singleton] at he
      subst he
      exact hlt q hq
  | _ => exact absurd trivial hs

theorem Hist.within {s : LocalBuilder} {live : List Reg} (h : Hist Call.NoRepeat s live) : ∀ e ∈ s.pipeline, ∀ q ∈ e.1, q < s.n := by
  have key : ∀ {s s' : LocalBuilder}, Within s s' → (∀ e ∈ s.pipeline, ∀ q ∈ e.1, q < s.n) → ∀ e ∈ s'.pipeline, ∀ q ∈ e.1, q < s'.n := by
    rintro s s' ⟨a, seg, b, c⟩ ih e he q hq
    rw [b, List.mem_append] at he
    rcases he with he | he
    · exact lt_of_lt_of_le (ih e he q hq) a
    · exact c e he q hq
  have step : ∀ {s : LocalBuilder} {live rest : List Reg}, Hist Call.NoRepeat s live → ∀ c : Call, c.NoRepeat → live.Perm (c.args ++ rest) →
      (∀ out s', c.run s = .ok out s' → Within s s') ∧ (∀ s', c.run s = .error .error s' → Within s s') := by
    intro s live rest h c hc hp
    obtain ⟨i1, i2⟩ := h.own
    have hne : ∀ r ∈ c.args ++ rest, r ≠ [] := fun r hr => i2 r (hp.mem_iff.mpr hr)
    have how : Own s (c.args.flatten ++ rest.flatten) := by
      rw [← List.flatten_append]; exact i1.perm hp.flatten
    exact Call.within c hc s rest.flatten (fun r hr => hne r (by simp [hr])) how
  induction h with
  | start => simp [LocalBuilder.default]
  | ok c h hc hp hr ih => exact key ((step h c hc hp).1 _ _ hr) ih
  | err c h hc hp hr ih => exact key ((step h c hc hp).2 _ hr) ih
  | drop _ _ ih => exact ih

end Verif
