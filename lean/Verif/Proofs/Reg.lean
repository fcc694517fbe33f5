import Verif.Model.Builder
import Mathlib.Data.List.Nodup
import Mathlib.Data.List.Induction
import Mathlib.Data.List.Range

/-! # Register operations as pure functions -/

namespace Verif
open RegOps

/-! ## the builder monad -/

section Monad
variable {β α γ : Type}

theorem bind_ok {x : M β α} {f : α → M β γ} {s s' : β} {a : α} (h : x s = .ok a s') : (x >>= f) s = f a s' := by
  show EStateM.bind x f s = _
  unfold EStateM.bind
  rw [h]

theorem bind_err {x : M β α} {f : α → M β γ} {s s' : β} {e : Fail} (h : x s = .error e s') :
    (x >>= f) s = .error e s' := by
  show EStateM.bind x f s = _
  unfold EStateM.bind
  rw [h]

theorem pure_run (a : α) (s : β) : (pure a : M β α) s = .ok a s := rfl
theorem get_run (s : β) : (get : M β β) s = .ok s s := rfl
theorem throw_run (e : Fail) (s : β) : (throw e : M β α) s = .error e s := rfl
theorem modify_run (f : β → β) (s : β) : (modify f : M β Unit) s = .ok () (f s) := rfl
theorem set_run (s' s : β) : (set s' : M β Unit) s = .ok () s' := rfl

theorem unwrapM_ok {x : M β α} {s s' : β} {a : α} (h : x s = .ok a s') : unwrapM x s = .ok a s' := by
  unfold unwrapM; rw [h]

theorem unwrapM_err {x : M β α} {s s' : β} {e : Fail} (h : x s = .error e s') : unwrapM x s = .error .panic s' := by
  unfold unwrapM; rw [h]

@[simp] theorem unwrapM_pure (a : α) : unwrapM (pure a : M β α) = pure a := rfl
@[simp] theorem unwrapO_some (a : α) : (unwrapO (some a) : M β α) = pure a := rfl
@[simp] theorem unwrapO_none : (unwrapO none : M β α) = throw .panic := rfl
@[simp] theorem liftE_ok (a : α) : (liftE (.ok a) : M β α) = pure a := rfl
@[simp] theorem liftE_error (e : Fail) : (liftE (.error e) : M β α) = throw e := rfl

end Monad

/-! ## splitting -/

/-- `split_register_relative` of `LocalBuilder` as a state-independent function -/
def splitE (r : Reg) (indices : List ℕ) : Except Fail SplitResult :=
  match LocalBuilder.selectIndices r indices with
  | none => .error .panic
  | some sel =>
    let rem := r.filter fun oi => !sel.contains oi
    if sel = [] then (if rem = [] then .error .panic else .ok (.unselected rem))
    else if rem = [] then .ok (.selected sel) else .ok (.split sel rem)

theorem LocalBuilder.splitRel_eq (r : Reg) (idx : List ℕ) : LocalBuilder.splitRel r idx = liftE (splitE r idx) := by
  unfold LocalBuilder.splitRel splitE
  cases h : LocalBuilder.selectIndices r idx with
  | none => rfl
  | some sel =>
    simp only [unwrapO_some, pure_bind]
    by_cases hs : sel = []
    · subst hs
      by_cases hr : r = []
      · subst hr; rfl
      · simp only [Reg.new, List.isEmpty_nil, if_true, List.filter_true, List.contains_nil, Bool.not_false]
        have : r.isEmpty = false := by simp [hr]
        simp [this, hr]
    · have hs' : sel.isEmpty = false := by simp [hs]
      simp only [Reg.new, hs', Bool.false_eq_true, if_false, hs]
      by_cases hr : (r.filter fun oi => !sel.contains oi) = []
      · rw [hr]; rfl
      · have : (r.filter fun oi => !sel.contains oi).isEmpty = false := by simpa using hr
        rw [this, if_neg hr]
        rfl

/-- merging and splitting do not depend on the builder -/
class LawfulReg (β : Type) [RegOps β] : Prop where
  mergeTwo_eq : ∀ r1 r2 : Reg, r1 ++ r2 ≠ [] → (mergeTwo r1 r2 : M β Reg) = pure (r1 ++ r2)
  splitRel_eq : ∀ (r : Reg) (idx : List ℕ), (splitRel r idx : M β SplitResult) = liftE (splitE r idx)

instance : LawfulReg LocalBuilder where
  mergeTwo_eq r1 r2 h := by
    show LocalBuilder.mergeTwo r1 r2 = _
    have : (r1 ++ r2).isEmpty = false := by simpa using h
    unfold LocalBuilder.mergeTwo Reg.new
    rw [this]; rfl
  splitRel_eq := LocalBuilder.splitRel_eq

open LawfulReg

theorem selectIndices_eq (r : Reg) (idx : List ℕ) (h : ∀ i ∈ idx, i < r.length) :
    LocalBuilder.selectIndices r idx = some (idx.map fun i => r.getD i 0) := by
  induction idx with
  | nil => rfl
  | cons i idx ih =>
    have hi := h i (by simp)
    rw [LocalBuilder.selectIndices, if_pos (by omega), ih (fun j hj => h j (by simp [hj]))]
    simp [hi]

theorem splitE_split (r a b : Reg) (idx : List ℕ) (hs : LocalBuilder.selectIndices r idx = some a)
    (hf : (r.filter fun o => !a.contains o) = b) (ha : a ≠ []) (hb : b ≠ []) :
    splitE r idx = .ok (.split a b) := by
  unfold splitE
  rw [hs]
  simp only
  rw [if_neg ha, hf, if_neg hb]

theorem filter_append_left (a b : Reg) (h : (a ++ b).Nodup) :
    ((a ++ b).filter fun o => !a.contains o) = b := by
  rw [List.filter_append]
  have h1 : (a.filter fun o => !a.contains o) = [] := by
    rw [List.filter_eq_nil_iff]; intro x hx; simp [hx]
  have h2 : (b.filter fun o => !a.contains o) = b := by
    rw [List.filter_eq_self]; intro x hx
    have := List.disjoint_of_nodup_append h
    simp; intro hxa; exact this hxa hx
  rw [h1, h2]; rfl

theorem filter_append_right (a b : Reg) (h : (a ++ b).Nodup) :
    ((a ++ b).filter fun o => !b.contains o) = a := by
  rw [List.filter_append]
  have h1 : (b.filter fun o => !b.contains o) = [] := by
    rw [List.filter_eq_nil_iff]; intro x hx; simp [hx]
  have h2 : (a.filter fun o => !b.contains o) = a := by
    rw [List.filter_eq_self]; intro x hx
    have := List.disjoint_of_nodup_append h
    simp; intro hxa; exact this hx hxa
  rw [h1, h2]; simp

theorem splitE_prefix (a b : Reg) (h : (a ++ b).Nodup) (ha : a ≠ []) (hb : b ≠ []) :
    splitE (a ++ b) (List.range a.length) = .ok (.split a b) := by
  apply splitE_split _ _ _ _ _ (filter_append_left a b h) ha hb
  rw [selectIndices_eq]
  · congr 1
    apply List.ext_getElem
    · simp
    · intro i h1 h2
      simp [List.getElem?_append_left h2, h2]
  · intro i hi; simp at hi ⊢; omega

theorem splitE_head (q : ℕ) (b : Reg) (h : (q :: b).Nodup) (hb : b ≠ []) :
    splitE (q :: b) [0] = .ok (.split [q] b) := splitE_prefix [q] b h (by simp) hb

theorem splitE_single (q : ℕ) : splitE [q] [0] = .ok (.selected [q]) := by
  simp [splitE, LocalBuilder.selectIndices]

theorem splitE_last (a : Reg) (q : ℕ) (h : (a ++ [q]).Nodup) (ha : a ≠ []) :
    splitE (a ++ [q]) [(a ++ [q]).length - 1] = .ok (.split [q] a) := by
  apply splitE_split _ _ _ _ _ (filter_append_right a [q] h) (by simp) ha
  rw [selectIndices_eq]
  · simp
  · simp

section
variable {β : Type} [RegOps β] [LawfulReg β]

theorem splitHelper_eq (r : Reg) (hr : r ≠ []) (hn : r.Nodup) :
    ∀ (k : ℕ) (acc : List Reg), r.length ≤ k → (splitHelper k r acc : M β _) = pure (acc ++ r.map fun q => [q]) := by
  induction r with
  | nil => exact absurd rfl hr
  | cons q r ih =>
    intro k acc hk
    obtain _ | k := k
    · simp at hk
    · rw [splitHelper, splitRel_eq]
      by_cases hr' : r = []
      · subst hr'
        rw [splitE_single]; simp
      · rw [splitE_head q r hn hr']
        simp only [liftE_ok, pure_bind]
        rw [ih hr' (List.nodup_cons.mp hn).2 k _ (by simpa using hk)]
        simp

theorem splitAll_eq (r : Reg) (hr : r ≠ []) (hn : r.Nodup) : (splitAll r : M β _) = pure (r.map fun q => [q]) := by
  unfold splitAll
  rw [splitHelper_eq r hr hn _ _ (by omega)]; rfl

theorem mergeFold_eq (rs : List Reg) (acc : Reg) (ha : acc ≠ []) :
    (rs.foldlM (fun (acc : Option Reg) (r1 : Reg) =>
      match acc with
      | some r2 => do
        let r ← mergeTwo r2 r1
        pure (some r)
      | none => pure (some r1)) (some acc) : M β (Option Reg)) = pure (some (acc ++ rs.flatten)) := by
  induction rs generalizing acc with
  | nil => simp
  | cons r rs ih =>
    rw [List.foldlM_cons]
    simp only
    rw [mergeTwo_eq _ _ (by simp [ha])]
    simp only [pure_bind]
    rw [ih _ (by simp [ha])]
    simp

theorem mergeRegisters_nil : (mergeRegisters [] : M β _) = pure none := rfl

theorem mergeRegisters_eq (r : Reg) (rs : List Reg) (hr : r ≠ []) :
    (mergeRegisters (r :: rs) : M β _) = pure (some (r ++ rs.flatten)) := by
  unfold mergeRegisters
  rw [List.foldlM_cons]
  simp only [pure_bind]
  exact mergeFold_eq rs r hr

theorem mergeRegisters_ne (rs : List Reg) (h : rs ≠ []) (hr : ∀ r ∈ rs, r ≠ []) :
    (mergeRegisters rs : M β _) = pure (some rs.flatten) := by
  cases rs with
  | nil => exact absurd rfl h
  | cons r rs => rw [mergeRegisters_eq r rs (hr r (by simp))]; simp

theorem flatten_singles (r : Reg) : (r.map fun q => [q]).flatten = r := by
  induction r with
  | nil => rfl
  | cons q r ih => simp [ih]

theorem mergeSingles (r : Reg) (hr : r ≠ []) :
    (mergeRegisters (r.map fun q => [q]) : M β _) = pure (some r) := by
  rw [mergeRegisters_ne, flatten_singles]
  · simpa using hr
  · intro x hx; simp at hx; obtain ⟨_, _, rfl⟩ := hx; simp

theorem splitFirst_single (q : ℕ) : (splitFirst [q] : M β _) = pure (none, [q]) := by
  unfold splitFirst
  rw [splitRel_eq, splitE_single]; rfl

theorem splitFirst_eq (q : ℕ) (b : Reg) (h : (q :: b).Nodup) (hb : b ≠ []) :
    (splitFirst (q :: b) : M β _) = pure (some [q], b) := by
  unfold splitFirst
  rw [splitRel_eq, splitE_head q b h hb]; rfl

theorem splitLast_single (q : ℕ) : (splitLast [q] : M β _) = pure ([q], none) := by
  unfold splitLast
  rw [splitRel_eq, show [q].length - 1 = 0 from rfl, splitE_single]; rfl

theorem splitLast_eq (a : Reg) (q : ℕ) (h : (a ++ [q]).Nodup) (ha : a ≠ []) :
    (splitLast (a ++ [q]) : M β _) = pure (a, some [q]) := by
  unfold splitLast
  rw [splitRel_eq, splitE_last a q h ha]
  simp

end

end Verif
