import Verif.Proofs.Calc2
import Verif.Proofs.Grow

/-! # Measurements in a calculation -/

namespace Verif
open Complex Classical Finset

/-- the start of a calculation -/
noncomputable def calcInit (n i : ℕ) : CalcState :=
  { state := (List.replicate (1 <<< n) (0 : ℂ)).set i 1, arena := List.replicate (1 <<< n) 0, measurements := [] }

theorem calculate_eq (b : LocalBuilder) (it : List (Reg × ℕ)) (h : ∀ p ∈ it, ∀ q ∈ p.1, q < b.n) (rnds : ℕ → ℝ) :
    ∃ i, i < 2 ^ b.n ∧ asg b.n i = initAsg it ∧ initialIndex b.n it = some i ∧
      b.calculateStateWithInit it rnds =
        (calcFold b.n rnds b.pipeline (calcInit b.n i)).map fun r => (r.state, r.measurements) := by
  obtain ⟨i, h1, h2, h3⟩ := initialIndex_eq b.n it h
  refine ⟨i, h2, h3, h1, ?_⟩
  unfold LocalBuilder.calculateStateWithInit
  rw [h1]
  simp only [Option.bind_eq_bind, Option.bind_some]
  rw [if_pos (by simp only [List.length_replicate, Nat.one_shiftLeft]; exact h2)]
  unfold calcInit
  cases calcFold b.n rnds b.pipeline _ <;> rfl

theorem calculate_some (b : LocalBuilder) (it : List (Reg × ℕ)) (rnds : ℕ → ℝ) (c : List ℂ × List MeasResult)
    (h : b.calculateStateWithInit it rnds = some c) :
    ∃ i, initialIndex b.n it = some i ∧ i < 2 ^ b.n ∧
      ∃ st, calcFold b.n rnds b.pipeline (calcInit b.n i) = some st ∧ c = (st.state, st.measurements) := by
  unfold LocalBuilder.calculateStateWithInit at h
  cases hi : initialIndex b.n it with
  | none => rw [hi] at h; simp at h
  | some i =>
    rw [hi] at h
    simp only [Option.bind_eq_bind, Option.bind_some] at h
    split at h
    · rename_i hlt
      simp only [List.length_replicate, Nat.one_shiftLeft] at hlt
      refine ⟨i, rfl, hlt, ?_⟩
      cases hc : calcFold b.n rnds b.pipeline
        { state := (List.replicate (1 <<< b.n) (0 : ℂ)).set i 1, arena := List.replicate (1 <<< b.n) 0, measurements := [] } with
      | none => rw [hc] at h; simp at h
      | some st =>
        rw [hc] at h
        simp at h
        exact ⟨st, hc, h.symm⟩
    · exact absurd h (by simp)

theorem calculate_of_fold (b : LocalBuilder) (it : List (Reg × ℕ)) (rnds : ℕ → ℝ) (i : ℕ) (h1 : initialIndex b.n it = some i)
    (h2 : i < 2 ^ b.n) (st : CalcState) (h3 : calcFold b.n rnds b.pipeline (calcInit b.n i) = some st) :
    b.calculateStateWithInit it rnds = some (st.state, st.measurements) := by
  unfold LocalBuilder.calculateStateWithInit
  rw [h1]
  simp only [Option.bind_eq_bind, Option.bind_some]
  rw [if_pos (by simp only [List.length_replicate, Nat.one_shiftLeft]; exact h2)]
  unfold calcInit at h3
  rw [h3]; rfl

theorem calcFold_append (n : ℕ) (rnds : ℕ → ℝ) (p q : Pipeline) (st : CalcState) :
    calcFold n rnds (p ++ q) st = (calcFold n rnds p st).bind (calcFold n rnds q) := by
  unfold calcFold
  rw [List.foldlM_append]; rfl

theorem calcFold_cons (n : ℕ) (rnds : ℕ → ℝ) (e : List ℕ × CObj) (q : Pipeline) (st : CalcState) :
    calcFold n rnds (e :: q) st = (calcStep n rnds st e).bind (calcFold n rnds q) := by
  unfold calcFold
  rw [List.foldlM_cons]; rfl

theorem calcStep_meas (n : ℕ) (rnds : ℕ → ℝ) (st st' : CalcState) (e : List ℕ × CObj) (h : calcStep n rnds st e = some st') :
    ∃ l, st'.measurements = st.measurements ++ l ∧ l.length = if isMeas e then 1 else 0 := by
  unfold calcStep at h
  unfold isMeas
  split at h
  · rename_i heq; cases h; rw [heq]; exact ⟨[], by simp, rfl⟩
  · rename_i u hg heq
    rw [heq]
    split at h
    · exact absurd h (by simp)
    · simp only [Option.bind_eq_bind] at h
      cases ha : applyOpOverwrite n _ st.state st.arena 0 0 with
      | none => rw [ha] at h; exact absurd h (by simp)
      | some a => rw [ha] at h; cases h; exact ⟨[], by simp, rfl⟩
  · rename_i heq
    rw [heq]
    simp only [Option.bind_eq_bind] at h
    cases ha : measure n e.1 st.state st.arena none none (rnds st.measurements.length) with
    | none => rw [ha] at h; exact absurd h (by simp)
    | some a => rw [ha] at h; cases h; exact ⟨_, rfl, rfl⟩
  · rename_i heq
    rw [heq]
    simp only [Option.bind_eq_bind] at h
    cases ha : measureProbs n e.1 st.state none with
    | none => rw [ha] at h; exact absurd h (by simp)
    | some a => rw [ha] at h; cases h; exact ⟨_, rfl, rfl⟩

theorem calcFold_meas (n : ℕ) (rnds : ℕ → ℝ) (p : Pipeline) (st st' : CalcState) (h : calcFold n rnds p st = some st') :
    ∃ l, st'.measurements = st.measurements ++ l ∧ l.length = measCount p := by
  induction p generalizing st with
  | nil => cases h; exact ⟨[], by simp, rfl⟩
  | cons e p ih =>
    rw [calcFold_cons] at h
    cases hs : calcStep n rnds st e with
    | none => rw [hs] at h; exact absurd h (by simp)
    | some s1 =>
      rw [hs] at h
      obtain ⟨l1, a1, a2⟩ := calcStep_meas n rnds st s1 e hs
      obtain ⟨l2, b1, b2⟩ := ih s1 h
      refine ⟨l1 ++ l2, by rw [b1, a1, List.append_assoc], ?_⟩
      rw [List.length_append, a2, b2]
      unfold measCount
      rw [List.countP_cons]; omega

/-- splitting a calculation at a circuit element -/
theorem calcFold_split (n : ℕ) (rnds : ℕ → ℝ) (p q : Pipeline) (e : List ℕ × CObj) (st st' : CalcState)
    (h : calcFold n rnds (p ++ e :: q) st = some st') :
    ∃ s1 s2, calcFold n rnds p st = some s1 ∧ calcStep n rnds s1 e = some s2 ∧ calcFold n rnds q s2 = some st' := by
  rw [calcFold_append] at h
  cases hp : calcFold n rnds p st with
  | none => rw [hp] at h; exact absurd h (by simp)
  | some s1 =>
    rw [hp, Option.bind_some, calcFold_cons] at h
    cases hs : calcStep n rnds s1 e with
    | none => rw [hs] at h; exact absurd h (by simp)
    | some s2 => rw [hs] at h; exact ⟨s1, s2, rfl, hs, h⟩

theorem getElem?_mid {α : Type} (a l : List α) (x : α) (k : ℕ) (hk : k = a.length) : (a ++ [x] ++ l)[k]? = some x := by
  subst hk
  rw [List.append_assoc, List.getElem?_append_right (le_refl _)]
  simp

/-- a step of a unitary gate depends on the measurements not at all -/
theorem calcStep_unitary_meas (n : ℕ) (rnds rnds' : ℕ → ℝ) (s t : CalcState) (e : List ℕ × CObj) (hm : isMeas e = false)
    (h1 : s.state = t.state) (h2 : s.arena = t.arena) :
    Option.Rel (fun a b : CalcState => a.state = b.state ∧ a.arena = b.arena) (calcStep n rnds s e) (calcStep n rnds' t e) := by
  unfold calcStep
  unfold isMeas at hm
  split at hm
  · exact absurd hm (by simp)
  · rename_i u heq
    rw [heq]
    cases u with
    | GlobalPhase ρ => exact Option.Rel.some ⟨h2, h1⟩
    | _ =>
      simp only
      split
      · exact Option.Rel.none
      · rw [h1, h2]
        simp only [Option.bind_eq_bind]
        cases applyOpOverwrite n _ t.state t.arena 0 0 with
        | none => exact Option.Rel.none
        | some a => exact Option.Rel.some ⟨rfl, rfl⟩

theorem calcFold_unitary_meas (n : ℕ) (rnds rnds' : ℕ → ℝ) (p : Pipeline) (hm : ∀ e ∈ p, isMeas e = false) (s t : CalcState)
    (h1 : s.state = t.state) (h2 : s.arena = t.arena) :
    Option.Rel (fun a b : CalcState => a.state = b.state ∧ a.arena = b.arena) (calcFold n rnds p s) (calcFold n rnds' p t) := by
  induction p generalizing s t with
  | nil => exact Option.Rel.some ⟨h1, h2⟩
  | cons e p ih =>
    rw [calcFold_cons, calcFold_cons]
    have := calcStep_unitary_meas n rnds rnds' s t e (hm e (by simp)) h1 h2
    cases ha : calcStep n rnds s e with
    | none =>
      cases hb : calcStep n rnds' t e with
      | none => exact Option.Rel.none
      | some b => rw [ha, hb] at this; cases this
    | some a =>
      cases hb : calcStep n rnds' t e with
      | none => rw [ha, hb] at this; cases this
      | some b =>
        rw [ha, hb] at this
        cases this with
        | some hab => exact ih (fun e' he' => hm e' (by simp [he'])) a b hab.1 hab.2

theorem mapM_inv {α β : Type} (f : α → Option β) (l : List α) (ys : List β) (h : l.mapM f = some ys) :
    ys.length = l.length ∧ ∀ i (hi : i < l.length), ys[i]? = f l[i] := by
  induction l generalizing ys with
  | nil => cases h; simp
  | cons a l ih =>
    rw [List.mapM_cons] at h
    simp only [Option.bind_eq_bind] at h
    cases ha : f a with
    | none => rw [ha] at h; exact absurd h (by simp)
    | some b =>
      cases hl : l.mapM f with
      | none => rw [ha, hl] at h; exact absurd h (by simp)
      | some bs =>
        rw [ha, hl] at h
        cases h
        obtain ⟨i1, i2⟩ := ih bs hl
        refine ⟨by simp [i1], ?_⟩
        intro i hi
        cases i with
        | zero => simp [ha]
        | succ i => simpa using i2 i (by simpa using hi)

end Verif
