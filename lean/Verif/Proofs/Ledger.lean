import Verif.Spec.Nest
import Verif.Proofs.History
import Verif.Model.Arith
import Mathlib.Data.List.Perm.Subperm

/-! # Ownership of qubits through every method, on builders inside conditions -/

namespace Verif
open RegOps CircuitBuilder TempBuilder LawfulReg

/-- the circuit objects that may occur (`Ok`): those the library makes, their inverses, measurements, and whatever else is let
in. All but those made by measuring are `Given`. -/
class Stock where
  Ok : CObj → Prop
  Given : CObj → Prop
  given : ∀ {c}, Given c → Ok c
  x : Given ⟨1, .unitary .X⟩
  y : Given ⟨1, .unitary .Y⟩
  z : Given ⟨1, .unitary .Z⟩
  h : Given ⟨1, .unitary .H⟩
  s : Given ⟨1, .unitary .S⟩
  t : Given ⟨1, .unitary .T⟩
  cnot : Given ⟨2, .unitary .CNOT⟩
  rz : ∀ n ρ, 0 < n → Given ⟨n, .unitary (.Rz ρ)⟩
  phase : ∀ n ρ, 0 < n → Given ⟨n, .unitary (.GlobalPhase ρ)⟩
  meas : ∀ n o, 0 < n → Ok ⟨n, .meas o⟩
  invert : ∀ c cs, Ok c → invertObject c = .ok cs → ∀ c' ∈ cs, Given c'
  /-- whether measurements are only made by measuring -/
  Silent : Prop
  silent : Silent → ∀ c, Given c → ∀ o, c.object ≠ .meas o

/-- a circuit element on distinct allocated qubits, as many as its object has, the object being among the allowed ones -/
def Stored [Stock] (n : ℕ) (e : List ℕ × CObj) : Prop :=
  e.1 ≠ [] ∧ e.1.Nodup ∧ (∀ q ∈ e.1, q < n) ∧ e.2.n = e.1.length ∧ Stock.Ok e.2

/-- what it means that the caller holds the registers `L` -/
class Ledger (β : Type) where
  Holds : β → List Reg → Prop
  sub : ∀ {s L L'}, L'.Subperm L → Holds s L → Holds s L'
  nodup : ∀ {s L}, Holds s L → L.flatten.Nodup
  ne : ∀ {s L}, Holds s L → ∀ r ∈ L, r ≠ []
  /-- the circuit has only grown, by elements that leave the registers `L` alone -/
  Spares : β → β → List Reg → Prop
  spares_refl : ∀ s L, Spares s s L
  spares_trans : ∀ {s s' s'' L}, Spares s s' L → Spares s' s'' L → Spares s s'' L
  spares_sub : ∀ {s s' L L'}, L'.Subperm L → Spares s s' L → Spares s s' L'
  /-- what is held after an `Err` -/
  Left : β → List Reg → Prop
  left : ∀ {s L}, Holds s L → Left s L
  left_sub : ∀ {s L L'}, L'.Subperm L → Left s L → Left s L'
  /-- what has become of the circuit after an `Err` -/
  Scraps : β → β → List Reg → Prop
  scraps : ∀ {s s' L}, Spares s s' L → Scraps s s' L
  scraps_trans : ∀ {s s' s'' L}, Spares s s' L → Scraps s' s'' L → Scraps s s'' L
  scraps_sub : ∀ {s s' L L'}, L'.Subperm L → Scraps s s' L → Scraps s s' L'

open Ledger

/-- holding registers, and sparing those of others, in the same way after an `Err` -/
abbrev Ledger.plain {β : Type} (Holds : β → List Reg → Prop) (sub : ∀ {s L L'}, L'.Subperm L → Holds s L → Holds s L')
    (nodup : ∀ {s L}, Holds s L → L.flatten.Nodup) (ne : ∀ {s L}, Holds s L → ∀ r ∈ L, r ≠ []) (Spares : β → β → List Reg → Prop)
    (spares_refl : ∀ s L, Spares s s L) (spares_trans : ∀ {s s' s'' L}, Spares s s' L → Spares s' s'' L → Spares s s'' L)
    (spares_sub : ∀ {s s' L L'}, L'.Subperm L → Spares s s' L → Spares s s' L') : Ledger β where
  Holds := Holds
  sub := sub
  nodup := nodup
  ne := ne
  Spares := Spares
  spares_refl := spares_refl
  spares_trans := spares_trans
  spares_sub := spares_sub
  Left := Holds
  left h := h
  left_sub := sub
  Scraps := Spares
  scraps h := h
  scraps_trans := spares_trans
  scraps_sub := spares_sub

theorem flatten_subperm {A B : List Reg} (h : A.Subperm B) : A.flatten.Subperm B.flatten := by
  obtain ⟨l, hl, hs⟩ := h
  exact hl.symm.flatten.subperm.trans hs.flatten.subperm

instance [Stock] : Ledger LocalBuilder := Ledger.plain
  (Holds := fun s L => Own s L.flatten ∧ (∀ r ∈ L, r ≠ []) ∧ ∀ e ∈ s.pipeline, Stored s.n e)
  (sub := by
    rintro s L L' h ⟨how, hne, hp⟩
    refine ⟨?_, fun r hr => hne r (h.subset hr), hp⟩
    obtain ⟨l, hl, hs⟩ := flatten_subperm h
    exact (how.sub hs).perm hl)
  (nodup := fun h => h.1.left)
  (ne := fun h => h.2.1)
  (Spares := fun s s' L => s.n ≤ s'.n ∧ ∃ seg, s'.pipeline = s.pipeline ++ seg ∧ (∀ e ∈ seg, ∀ q ∈ e.1, q ∉ L.flatten) ∧
    (Stock.Silent → s'.measurements = s.measurements + measCount seg))
  (spares_refl := fun s L => ⟨Nat.le_refl _, [], by simp, by simp, fun _ => rfl⟩)
  (spares_trans := by
    rintro s s' s'' L ⟨n1, seg1, h1, h1', m1⟩ ⟨n2, seg2, h2, h2', m2⟩
    refine ⟨Nat.le_trans n1 n2, seg1 ++ seg2, by rw [h2, h1, List.append_assoc], fun e he => ?_, fun h => by
      rw [m2 h, m1 h, Nat.add_assoc]
      unfold measCount
      rw [List.countP_append]⟩
    rcases List.mem_append.mp he with he | he
    · exact h1' e he
    · exact h2' e he)
  (spares_sub := by
    rintro s s' L L' h ⟨n1, seg, h1, h2, h3⟩
    exact ⟨n1, seg, h1, fun e he q hq hm => h2 e he q hq ((flatten_subperm h).subset hm), h3⟩)

/-- the condition register is held by the builder -/
instance {β : Type} [Ledger β] : Ledger (Conditioned β) where
  Holds s L := Holds s.parent (s.cr.toList ++ L)
  sub h how := Ledger.sub ((List.Subperm.refl _).append h) how
  nodup how := by
    have := Ledger.nodup how
    rw [List.flatten_append] at this
    exact this.of_append_right
  ne how r hr := Ledger.ne how r (List.mem_append_right _ hr)
  Spares s s' L := Spares s.parent s'.parent L
  spares_refl s L := Ledger.spares_refl s.parent L
  spares_trans h h' := Ledger.spares_trans h h'
  spares_sub h h' := Ledger.spares_sub h h'
  Left s L := Left s.parent (s.cr.toList ++ L)
  left h := Ledger.left h
  left_sub h how := Ledger.left_sub ((List.Subperm.refl _).append h) how
  Scraps s s' L := Scraps s.parent s'.parent L
  scraps h := Ledger.scraps h
  scraps_trans h h' := Ledger.scraps_trans h h'
  scraps_sub h h' := Ledger.scraps_sub h h'

/-- the method takes the registers `pre` and gives `post`, leaving alone what else is held -/
def Passes {β α : Type} [Ledger β] (m : M β α) (pre : List Reg) (post : α → List Reg) : Prop :=
  ∀ s L, Holds s (pre ++ L) →
    (∀ a s', m s = .ok a s' → Holds s' (post a ++ L) ∧ Spares s s' L) ∧
    (∀ s', m s = .error .error s' → Left s' L ∧ Scraps s s' L)

/-- one occurrence -/
def cnt (x a : Reg) : ℕ := [a].count x

theorem count_cons_cnt (x a : Reg) (l : List Reg) : (a :: l).count x = cnt x a + l.count x := by
  rw [show a :: l = [a] ++ l from rfl, List.count_append]
  rfl

theorem subperm_count {A B : List Reg} : A.Subperm B ↔ ∀ x, A.count x ≤ B.count x := by
  rw [List.subperm_ext_iff]
  exact ⟨fun h x => (by
    by_cases hx : x ∈ A
    · exact h x hx
    · rw [List.count_eq_zero_of_not_mem hx]; exact Nat.zero_le _), fun h x _ => h x⟩

/-- arithmetic of multiplicities -/
macro "qperm" : tactic => `(tactic| (
  refine List.subperm_ext_iff.mpr fun x _ => ?_
  simp only [List.count_append, count_cons_cnt, List.flatten_cons, List.flatten_nil, List.flatten_append, List.append_nil,
    List.nil_append, List.cons_append, List.count_nil, Option.toList_some, Option.toList_none, SplitResult.regs,
    SplitManyResult.regs, List.map_nil, List.map_cons]
  <;> omega))

theorem map_one_flatten (l : List Reg) : (l.map fun r => [r]).flatten = l := by
  induction l with
  | nil => rfl
  | cons r l ih => simp [ih]

theorem map_nil_flatten {γ : Type} (l : List γ) : (l.map fun _ => ([] : List Reg)).flatten = [] := by simp

namespace Passes
variable {β α γ : Type} [Ledger β]

theorem bind {m : M β α} {f : α → M β γ} {pre pre' : List Reg} {post : α → List Reg} {post' : γ → List Reg} (fr : List Reg)
    (hm : Passes m pre' post) (hp : (pre' ++ fr).Subperm pre) (hf : ∀ a, Passes (f a) (post a ++ fr) post') :
    Passes (m >>= f) pre post' := by
  intro s L h
  have h1 : Holds s (pre' ++ (fr ++ L)) := by
    rw [← List.append_assoc]
    exact sub (hp.append (List.Subperm.refl L)) h
  obtain ⟨ho, he⟩ := hm s _ h1
  rcases hms : m s with ⟨a, s1⟩ | ⟨e, s1⟩
  · rw [bind_ok hms]
    obtain ⟨this, hsp⟩ := ho a s1 hms
    rw [← List.append_assoc] at this
    have hsp := spares_sub (List.sublist_append_right fr L).subperm hsp
    obtain ⟨h2, h3⟩ := hf a s1 L this
    exact ⟨fun b s' hb => ⟨(h2 b s' hb).1, spares_trans hsp (h2 b s' hb).2⟩,
      fun s' hb => ⟨(h3 s' hb).1, scraps_trans hsp (h3 s' hb).2⟩⟩
  · rw [bind_err hms]
    refine ⟨fun a s' h => (by cases h), fun s' h => ?_⟩
    cases h
    exact ⟨left_sub (List.sublist_append_right _ _).subperm (he _ hms).1, scraps_sub (List.sublist_append_right _ _).subperm (he _ hms).2⟩

theorem mono {m : M β α} {pre pre' : List Reg} {post post' : α → List Reg} (hm : Passes m pre post) (hp : pre.Subperm pre')
    (hq : ∀ a, (post' a).Subperm (post a)) : Passes m pre' post' := by
  intro s L h
  obtain ⟨ho, he⟩ := hm s L (sub (hp.append (List.Subperm.refl L)) h)
  exact ⟨fun a s' h => ⟨sub ((hq a).append (List.Subperm.refl L)) (ho a s' h).1, (ho a s' h).2⟩, he⟩

theorem pure {pre : List Reg} {post : α → List Reg} (a : α) (h : (post a).Subperm pre) : Passes (Pure.pure a : M β α) pre post := by
  intro s L hs
  refine ⟨fun b s' he => ?_, fun s' he => (by cases he)⟩
  cases he
  exact ⟨sub (h.append (List.Subperm.refl L)) hs, spares_refl _ _⟩

theorem throw {pre : List Reg} {post : α → List Reg} (e : Fail) : Passes (MonadExcept.throw e : M β α) pre post := by
  intro s L hs
  refine ⟨fun b s' he => (by cases he), fun s' he => ?_⟩
  cases he
  exact ⟨left (sub (List.sublist_append_right _ _).subperm hs), scraps (spares_refl _ _)⟩

theorem get : Passes (MonadState.get : M β β) [] (fun _ => []) := by
  intro s L hs
  refine ⟨fun b s' he => ?_, fun s' he => (by cases he)⟩
  cases he
  exact ⟨hs, spares_refl _ _⟩

theorem unwrapM {m : M β α} {pre : List Reg} {post : α → List Reg} (h : Passes m pre post) : Passes (Verif.unwrapM m) pre post := by
  intro s L hs
  obtain ⟨ho, -⟩ := h s L hs
  rcases hms : m s with ⟨a, s1⟩ | ⟨e, s1⟩
  · rw [unwrapM_ok hms]
    refine ⟨fun b s' he => ?_, fun s' he => (by cases he)⟩
    cases he
    exact ho _ _ hms
  · rw [unwrapM_err hms]
    exact ⟨fun b s' he => (by cases he), fun s' he => (by cases he)⟩

theorem unwrapO {o : Option α} {pre : List Reg} {post : α → List Reg} (h : ∀ a, o = some a → (post a).Subperm pre) :
    Passes (Verif.unwrapO o : M β α) pre post := by
  cases o with
  | none => exact throw _
  | some a => exact pure a (h a rfl)

theorem liftE {e : Except Fail α} {pre : List Reg} {post : α → List Reg} (h : pre.flatten.Nodup → ∀ a, e = .ok a → (post a).Subperm pre) :
    Passes (Verif.liftE e : M β α) pre post := by
  intro s L hs
  cases e with
  | error e => exact throw e s L hs
  | ok a => exact pure a (h (by have := nodup hs; rw [List.flatten_append] at this; exact this.of_append_left) a rfl) s L hs

/-- facts that hold of the qubits held can be used -/
theorem assume {m : M β α} {pre : List Reg} {post : α → List Reg}
    (h : pre.flatten.Nodup → (∀ r ∈ pre, r ≠ []) → Passes m pre post) : Passes m pre post :=
  fun s L hs => h (by have := nodup hs; rw [List.flatten_append] at this; exact this.of_append_left)
    (fun r hr => ne hs r (List.mem_append_left _ hr)) s L hs

theorem foldlM {δ : Type} (inv : α → List Reg) (take : δ → List Reg) {f : α → δ → M β α} (l : List δ)
    (h : ∀ a, ∀ d ∈ l, Passes (f a d) (inv a ++ take d) inv) (a : α) :
    Passes (l.foldlM f a) (inv a ++ (l.map take).flatten) inv := by
  induction l generalizing a with
  | nil => exact pure a (by qperm)
  | cons d l ih =>
    rw [List.foldlM_cons]
    refine bind (l.map take).flatten (h a d (by simp)) (by qperm) fun a' => ih (fun a d hd => h a d (by simp [hd])) a'

theorem mapM {δ : Type} (take : δ → List Reg) (give : α → List Reg) {f : δ → M β α} (l : List δ)
    (h : ∀ d ∈ l, Passes (f d) (take d) give) : Passes (l.mapM f) (l.map take).flatten fun as => (as.map give).flatten := by
  induction l with
  | nil => exact pure [] (by qperm)
  | cons d l ih =>
    rw [List.mapM_cons]
    exact bind (l.map take).flatten (h d (by simp)) (by qperm) fun a =>
      bind (give a) (ih fun d hd => h d (by simp [hd])) (by qperm) fun as => pure _ (by qperm)

/-- the rest stays as it is -/
theorem frame {m : M β α} {pre : List Reg} {post : α → List Reg} (hm : Passes m pre post) (fr : List Reg) :
    Passes m (pre ++ fr) fun a => post a ++ fr := by
  intro s L h
  rw [List.append_assoc] at h
  obtain ⟨ho, he⟩ := hm s _ h
  have hf : L.Subperm (fr ++ L) := (List.sublist_append_right _ _).subperm
  refine ⟨fun a s' h => ?_, fun s' h => ⟨left_sub hf (he s' h).1, scraps_sub hf (he s' h).2⟩⟩
  rw [List.append_assoc]
  exact ⟨(ho a s' h).1, spares_sub hf (ho a s' h).2⟩

theorem forM {δ : Type} {f : δ → M β PUnit} (l : List δ) (h : ∀ d ∈ l, Passes (f d) [] fun _ => []) :
    Passes (l.forM f) [] fun _ => [] := by
  induction l with
  | nil => exact pure _ (by qperm)
  | cons d l ih => exact bind [] (h d (by simp)) (by qperm) fun _ => ih fun d hd => h d (by simp [hd])

end Passes

/-! ## builders -/

/-- the register methods pass ownership on -/
class PassesR (β : Type) [RegOps β] [Ledger β] : Prop where
  register : ∀ n, Passes (register n : M β Reg) [] fun r => [r]
  mergeTwo : ∀ a b, Passes (mergeTwo a b : M β Reg) [a, b] fun r => [r]
  splitRel : ∀ r idx, idx.Nodup → Passes (splitRel r idx : M β SplitResult) [r] fun x => x.regs

/-- the gate objects of a builder are among the allowed ones -/
class Stocked {β : Type} [Stock] (mk : β → CObj) : Prop where
  ok : ∀ b, Stock.Given (mk b)

/-- the basic methods pass ownership on -/
class PassesT (β : Type) [Stock] [TempBuilder β] [Ledger β] : Prop extends PassesR β where
  applyCO : ∀ r c, Stock.Given c → Passes (applyCO r c : M β Reg) [r] fun r => [r]
  makeTemp : Passes (makeTempQubit : M β Reg) [] fun r => [r]
  returnTemp : ∀ r, Passes (returnTemp r : M β Unit) [r] fun _ => []
  mat : ∀ n data, CliffordT.vecMatrixToCO β n data = ⟨n, .unitary (.MAT data)⟩
  x : Stocked (CliffordT.makeX : β → CObj)
  y : Stocked (CliffordT.makeY : β → CObj)
  z : Stocked (CliffordT.makeZ : β → CObj)
  h : Stocked (CliffordT.makeH : β → CObj)
  s : Stocked (CliffordT.makeS : β → CObj)
  t : Stocked (CliffordT.makeT : β → CObj)
  cnot : Stocked (CliffordT.makeCnot : β → CObj)

attribute [instance] PassesT.x PassesT.y PassesT.z PassesT.h PassesT.s PassesT.t PassesT.cnot

/-- applying the gate object passes ownership on -/
class Gated {β : Type} [CliffordT β] [Ledger β] (mk : β → CObj) : Prop where
  ok : ∀ b r, Passes (applyCO r (mk b) : M β Reg) [r] fun r => [r]

/-- the gates pass ownership on -/
class PassesA (β : Type) [CliffordT β] [Ledger β] : Prop extends PassesR β where
  x : Gated (CliffordT.makeX : β → CObj)
  y : Gated (CliffordT.makeY : β → CObj)
  z : Gated (CliffordT.makeZ : β → CObj)
  h : Gated (CliffordT.makeH : β → CObj)
  s : Gated (CliffordT.makeS : β → CObj)
  t : Gated (CliffordT.makeT : β → CObj)
  cnot : Gated (CliffordT.makeCnot : β → CObj)

attribute [instance] PassesA.x PassesA.y PassesA.z PassesA.h PassesA.s PassesA.t PassesA.cnot

theorem PassesT.gated {β : Type} [Stock] [TempBuilder β] [Ledger β] [PassesT β] (mk : β → CObj) [hk : Stocked mk] : Gated mk :=
  ⟨fun b r => PassesT.applyCO r (mk b) (hk.ok b)⟩

instance {β : Type} [Stock] [TempBuilder β] [Ledger β] [PassesT β] : PassesA β where
  x := PassesT.gated _
  y := PassesT.gated _
  z := PassesT.gated _
  h := PassesT.gated _
  s := PassesT.gated _
  t := PassesT.gated _
  cnot := PassesT.gated _

section
variable {β : Type} [RegOps β] [Ledger β] [PassesR β]

theorem passes_mergeRegisters (rs : List Reg) : Passes (mergeRegisters rs : M β _) rs fun o => o.toList := by
  unfold mergeRegisters
  refine (Passes.foldlM (fun o : Option Reg => o.toList) (fun r : Reg => [r]) rs ?_ none).mono
    (by rw [map_one_flatten]; exact List.Subperm.refl _)
    fun _ => List.Subperm.refl _
  rintro (_ | a) d _
  · exact Passes.pure _ (by qperm)
  · exact Passes.bind [] (PassesR.mergeTwo a d) (by qperm) fun r => Passes.pure _ (by qperm)

theorem passes_splitHelper (k : ℕ) : ∀ (r : Reg) (acc : List Reg),
    Passes (splitHelper k r acc : M β _) (r :: acc) fun rs => rs := by
  induction k with
  | zero => intro r acc; exact Passes.throw _
  | succ k ih =>
    intro r acc
    refine Passes.bind acc (PassesR.splitRel r [0] (by simp)) (by qperm) fun a => ?_
    rcases a with a | a | ⟨a, b⟩
    · exact Passes.pure _ (by qperm)
    · exact Passes.throw _
    · exact (ih b (acc ++ [a])).mono (by qperm) fun _ => List.Subperm.refl _

theorem passes_splitAll (r : Reg) : Passes (splitAll r : M β _) [r] fun rs => rs :=
  (passes_splitHelper _ r []).mono (by qperm) fun _ => List.Subperm.refl _

theorem passes_splitFirst (r : Reg) : Passes (splitFirst r : M β _) [r] fun p => p.1.toList ++ [p.2] := by
  refine Passes.bind [] (PassesR.splitRel r [0] (by simp)) (by qperm) fun a => ?_
  rcases a with a | a | ⟨a, b⟩
  · exact Passes.pure _ (by qperm)
  · exact Passes.throw _
  · exact Passes.pure _ (by qperm)

theorem passes_splitLast (r : Reg) : Passes (splitLast r : M β _) [r] fun p => p.1 :: p.2.toList := by
  unfold splitLast
  split
  · exact Passes.bind [r] (Passes.throw (pre := []) (post := fun _ => []) _) (by qperm) fun a => by
      refine Passes.bind [] (PassesR.splitRel r [r.length - 1] (by simp)) (by qperm) fun a => ?_
      rcases a with a | a | ⟨a, b⟩
      · exact Passes.pure _ (by qperm)
      · exact Passes.throw _
      · exact Passes.pure _ (by qperm)
  · refine Passes.bind [] (PassesR.splitRel r [r.length - 1] (by simp)) (by qperm) fun a => ?_
    rcases a with a | a | ⟨a, b⟩
    · exact Passes.pure _ (by qperm)
    · exact Passes.throw _
    · exact Passes.pure _ (by qperm)

/-- the registers in the slots -/
def held (slots : List (Option Reg)) : List Reg := slots.filterMap id

theorem held_map_some (rs : List Reg) : held (rs.map some) = rs := by
  unfold held
  rw [List.filterMap_map]
  induction rs with
  | nil => rfl
  | cons r rs ih => simp

theorem held_takeMany {slots slots' : List (Option Reg)} {is : List ℕ} {rs : List Reg} (h : takeMany slots is = .ok (rs, slots')) :
    (rs ++ held slots').Subperm (held slots) := by
  exact (takeMany_perm is slots rs slots' h).subperm

theorem passes_splitGroups (r : Reg) (groups : List (List ℕ)) :
    Passes (splitGroups r groups : M β _) [r] fun x => x.regs := by
  unfold splitGroups
  refine Passes.bind [] (passes_splitAll r) (by qperm) fun rs => ?_
  refine Passes.bind [] ((Passes.foldlM (fun acc : List Reg × List (Option Reg) => acc.1 ++ held acc.2) (fun _ => [])
    groups ?_ ([], rs.map some)).mono (pre' := rs) ?_ fun _ => List.Subperm.refl _) (by qperm) ?_
  · rintro ⟨a, sl⟩ is _
    refine Passes.bind a (Passes.liftE (pre := held sl) (post := fun p => p.1 ++ held p.2) ?_) (by qperm) ?_
    · rintro - ⟨rs, sl'⟩ h
      exact held_takeMany h
    · rintro ⟨subrs, sl'⟩
      refine Passes.bind (a ++ held sl') (passes_mergeRegisters subrs) (by qperm) fun m => Passes.pure _ ?_
      qperm
  · rw [map_nil_flatten, held_map_some]
    qperm
  · rintro ⟨sel, sl⟩
    refine Passes.bind sel (passes_mergeRegisters _) (pre' := held sl) ?_ fun m => ?_
    · qperm
    · cases m
      · exact Passes.pure _ (by qperm)
      · exact Passes.pure _ (by qperm)

theorem passes_unwrap (m : Option Reg) : Passes (unwrapO m : M β _) m.toList fun r => [r] :=
  Passes.unwrapO fun a h => by subst h; qperm

end

section
variable {β : Type} [TempBuilder β] [Ledger β] [PassesA β]

theorem passes_gate (mk : β → CObj) [hk : Gated mk] (r : Reg) : Passes (gate mk r : M β _) [r] fun r => [r] :=
  Passes.bind [r] Passes.get (by qperm) fun b => (hk.ok b r).unwrapM

theorem passes_sDagger (r : Reg) : Passes (sDagger r : M β _) [r] fun r => [r] :=
  Passes.bind [] (passes_gate _ r) (by qperm) fun r => (passes_gate _ r).mono (by qperm) fun _ => List.Subperm.refl _

theorem passes_tDagger (r : Reg) : Passes (tDagger r : M β _) [r] fun r => [r] :=
  Passes.bind [] (passes_sDagger r) (by qperm) fun r => (passes_gate _ r).mono (by qperm) fun _ => List.Subperm.refl _

theorem passes_cnotStep (p : Reg × List Reg) (r : Reg) :
    Passes (cnotStep p r : M β _) ([p.1] ++ p.2 ++ [r]) fun p => [p.1] ++ p.2 := by
  refine Passes.bind p.2 (PassesR.mergeTwo p.1 r) (by qperm) fun r => ?_
  refine Passes.bind ([r] ++ p.2) Passes.get (by qperm) fun b => ?_
  refine Passes.bind p.2 (Gated.ok b r) (by qperm) fun r => ?_
  refine Passes.bind p.2 (PassesR.splitRel r [0] (by simp)) (by qperm) fun a => ?_
  rcases a with a | a | ⟨a, b⟩
  · exact Passes.throw _
  · exact Passes.throw _
  · exact Passes.pure _ (by qperm)

theorem passes_cnot (cr r : Reg) : Passes (cnot cr r : M β _) [cr, r] fun p => [p.1, p.2] := by
  unfold cnot
  split
  · exact Passes.throw _
  · refine Passes.bind [cr] (passes_splitAll r) (by qperm) fun rs => ?_
    refine Passes.bind [] ((Passes.foldlM (fun p : Reg × List Reg => [p.1] ++ p.2) (fun r => [r]) rs
      (fun p r _ => passes_cnotStep p r) (cr, [])).mono (pre' := rs ++ [cr]) ?_ fun _ => List.Subperm.refl _) (by qperm) ?_
    · rw [map_one_flatten]
      qperm
    · rintro ⟨c, l⟩
      refine Passes.bind [c] (passes_mergeRegisters l) (by qperm) fun m => ?_
      refine Passes.bind [c] (Passes.unwrapO (pre := m.toList) (post := fun r => [r]) ?_) (by qperm) fun r => Passes.pure _ (by qperm)
      rintro a rfl
      qperm

theorem passes_swapPair (a b : Reg) : Passes (swapPair a b : M β _) [a, b] fun p => [p.1, p.2] := by
  have h : Passes (do
      let (ra, rb) ← cnot a b
      let (rb, ra) ← cnot rb ra
      cnot ra rb : M β _) [a, b] fun p => [p.1, p.2] := by
    refine Passes.bind [] (passes_cnot a b) (by qperm) ?_
    rintro ⟨a, b⟩
    refine Passes.bind [] (passes_cnot b a) (by qperm) ?_
    rintro ⟨b, a⟩
    exact (passes_cnot a b).mono (by qperm) fun _ => List.Subperm.refl _
  unfold swapPair
  split
  · exact Passes.bind [a, b] (Passes.throw (pre := []) (post := fun _ => []) _) (by qperm) fun _ => h.unwrapM
  · exact h.unwrapM

theorem zip_flatten_sub (as bs : List Reg) : ((as.zip bs).map fun p => [p.1, p.2]).flatten.Subperm (as ++ bs) := by
  induction as generalizing bs with
  | nil => exact List.nil_subperm
  | cons a as ih =>
    cases bs with
    | nil => exact List.nil_subperm
    | cons b bs =>
      have h := subperm_count.mp (ih bs)
      refine subperm_count.mpr fun x => ?_
      have := h x
      simp only [List.zip_cons_cons, List.map_cons, List.flatten_cons, List.cons_append, List.nil_append, List.count_append, count_cons_cnt] at this ⊢
      omega

theorem unzip_flatten_sub (ps : List (Reg × Reg)) :
    (ps.map Prod.fst ++ ps.map Prod.snd).Subperm (ps.map fun p => [p.1, p.2]).flatten := by
  induction ps with
  | nil => exact List.nil_subperm
  | cons p ps ih =>
    have h := subperm_count.mp ih
    refine subperm_count.mpr fun x => ?_
    have := h x
    simp only [List.map_cons, List.flatten_cons, List.cons_append, List.nil_append, List.count_append, count_cons_cnt] at this ⊢
    omega

theorem passes_swap (a b : Reg) : Passes (swap a b : M β _) [a, b] fun p => [p.1, p.2] := by
  unfold swap
  split
  · refine Passes.bind [b] (passes_splitAll a) (by qperm) fun as => ?_
    refine Passes.bind as (passes_splitAll b) (by qperm) fun bs => ?_
    refine Passes.bind [] (Passes.mapM (fun p : Reg × Reg => [p.1, p.2]) (fun p : Reg × Reg => [p.1, p.2]) (as.zip bs)
      fun p _ => passes_swapPair p.1 p.2) ?_ fun ps => ?_
    · rw [List.append_nil]
      exact (zip_flatten_sub as bs).trans (by qperm)
    · refine Passes.bind (ps.map Prod.snd) (passes_mergeRegisters _) (by
        rw [List.append_nil]; exact unzip_flatten_sub ps) fun ma => ?_
      refine Passes.bind (ps.map Prod.snd) (passes_unwrap ma) (by qperm) fun ra => ?_
      refine Passes.bind [ra] (passes_mergeRegisters _) (by qperm) fun mb => ?_
      exact Passes.bind [ra] (passes_unwrap mb) (by qperm) fun rb => Passes.pure _ (by qperm)
  · exact Passes.throw _

theorem passes_basicToffoli (cr r : Reg) : Passes (basicToffoli cr r : M β _) [cr, r] fun p => [p.1, p.2] := by
  unfold basicToffoli
  split
  · refine Passes.bind [r] (PassesR.splitRel cr [0] (by simp)) (by qperm) fun a => ?_
    rcases a with a | a | ⟨a, b⟩
    · exact Passes.throw _
    · exact Passes.throw _
    · refine Passes.bind [a, b] (passes_gate _ r) (by qperm) fun r => ?_
      refine Passes.bind [a] (passes_cnot b r).unwrapM (by qperm) ?_
      rintro ⟨b, r⟩
      refine Passes.bind [a, b] (passes_tDagger r) (by qperm) fun r => ?_
      refine Passes.bind [b] (passes_cnot a r).unwrapM (by qperm) ?_
      rintro ⟨a, r⟩
      refine Passes.bind [a, b] (passes_gate _ r) (by qperm) fun r => ?_
      refine Passes.bind [a] (passes_cnot b r).unwrapM (by qperm) ?_
      rintro ⟨b, r⟩
      refine Passes.bind [a, b] (passes_tDagger r) (by qperm) fun r => ?_
      refine Passes.bind [b] (passes_cnot a r).unwrapM (by qperm) ?_
      rintro ⟨a, r⟩
      refine Passes.bind [a, r] (passes_gate _ b) (by qperm) fun b => ?_
      refine Passes.bind [a, b] (passes_gate _ r) (by qperm) fun r => ?_
      refine Passes.bind [r] (passes_cnot a b).unwrapM (by qperm) ?_
      rintro ⟨a, b⟩
      refine Passes.bind [a, b] (passes_gate _ r) (by qperm) fun r => ?_
      refine Passes.bind [b, r] (passes_gate _ a) (by qperm) fun a => ?_
      refine Passes.bind [a, r] (passes_tDagger b) (by qperm) fun b => ?_
      refine Passes.bind [r] (passes_cnot a b).unwrapM (by qperm) ?_
      rintro ⟨a, b⟩
      exact Passes.bind [r] (PassesR.mergeTwo a b) (by qperm) fun c => Passes.pure _ (by qperm)
  · exact Passes.throw _

end

section
variable {β : Type} [Stock] [TempBuilder β] [Ledger β] [PassesT β]

theorem passes_makeTempRegister (n : ℕ) : Passes (makeTempRegister n : M β _) [] fun r => [r] := by
  refine Passes.bind [] ((Passes.mapM (fun _ => []) (fun r : Reg => [r]) (List.range n) fun _ _ => PassesT.makeTemp).mono
    (pre' := []) ?_ fun _ => List.Subperm.refl _) (by qperm) fun rs => ?_
  · rw [map_nil_flatten]
  · refine Passes.bind [] (passes_mergeRegisters rs) (by rw [map_one_flatten, List.append_nil]) fun m => ?_
    exact (passes_unwrap m).mono (by qperm) fun _ => List.Subperm.refl _

theorem passes_toffoliF (k : ℕ) : ∀ cr r : Reg, Passes (toffoliF k cr r : M β _) [cr, r] fun p => [p.1, p.2] := by
  induction k with
  | zero => intro cr r; exact Passes.throw _
  | succ k ih =>
    intro cr r
    unfold toffoliF
    split
    · exact passes_cnot cr r
    split
    · exact passes_basicToffoli cr r
    refine Passes.bind [r] (PassesR.splitRel cr [0, 1] (by simp)) (by qperm) fun a => ?_
    rcases a with a | a | ⟨hd, tl⟩
    · exact Passes.throw _
    · exact Passes.throw _
    · refine Passes.bind [hd, tl, r] PassesT.makeTemp (by qperm) fun tr => ?_
      refine Passes.bind [tl, r] (ih hd tr).unwrapM (by qperm) ?_
      rintro ⟨hd, tr⟩
      refine Passes.bind [hd, r] (PassesR.mergeTwo tl tr) (by qperm) fun c => ?_
      refine Passes.bind [hd] (ih c r).unwrapM (by qperm) ?_
      rintro ⟨c, r⟩
      refine Passes.bind [hd, r] (passes_splitLast c) (by qperm) ?_
      rintro ⟨tl, tr⟩
      refine Passes.bind [hd, tl, r] (passes_unwrap tr) (by qperm) fun tr => ?_
      refine Passes.bind [tl, r] (ih hd tr).unwrapM (by qperm) ?_
      rintro ⟨hd, tr⟩
      refine Passes.bind [hd, tl, r] (PassesT.returnTemp tr) (by qperm) fun _ => ?_
      exact Passes.bind [r] (PassesR.mergeTwo hd tl) (by qperm) fun c => Passes.pure _ (by qperm)

theorem passes_toffoli (cr r : Reg) : Passes (toffoli cr r : M β _) [cr, r] fun p => [p.1, p.2] := passes_toffoliF _ cr r

end

/-! ## `LocalBuilder` -/

section
variable [Stock]

theorem Stored.grow {n k : ℕ} {e : List ℕ × CObj} (h : Stored n e) : Stored (n + k) e :=
  ⟨h.1, h.2.1, fun q hq => Nat.lt_of_lt_of_le (h.2.2.1 q hq) (Nat.le_add_right n k), h.2.2.2⟩

theorem Own.new {s : LocalBuilder} {L : List ℕ} (h : Own s L) (n : ℕ) : Own { s with n := s.n + n } (List.range' s.n n ++ L) := by
  have hd : ∀ q ∈ List.range' s.n n, ∀ q' ∈ L ++ s.zeroedQubits.flatten, q ≠ q' := by
    intro q hq q' hq' e
    have h1 := h.lt q' hq'
    rw [List.mem_range'_1] at hq
    omega
  refine ⟨h.pool, ?_, ?_⟩
  · rw [List.append_assoc, List.nodup_append]
    exact ⟨List.nodup_range', h.nodup, hd⟩
  · intro q hq
    rw [List.append_assoc, List.mem_append] at hq
    show q < s.n + n
    rcases hq with hq | hq
    · rw [List.mem_range'_1] at hq
      omega
    · have := h.lt q hq
      omega

theorem LocalBuilder.passes_register (n : ℕ) : Passes (LocalBuilder.register n) [] fun r => [r] := by
  rintro s L ⟨h, hne, hp⟩
  by_cases hn : n = 0
  · subst hn
    exact ⟨fun a s' he => (by cases he), fun s' he => (by cases he)⟩
  · have e : LocalBuilder.register n s = .ok (List.range' s.n n) { s with n := s.n + n } := by
      unfold LocalBuilder.register Reg.new
      have : (List.range' s.n n).isEmpty = false := by simp [hn]
      rw [bind_ok (get_run s), this]
      rfl
    rw [e]
    refine ⟨fun a s' he => ?_, fun s' he => (by cases he)⟩
    cases he
    refine ⟨⟨h.new n, ?_, fun e he => (hp e he).grow⟩, Nat.le_add_right _ _, [], by simp, by simp, fun _ => rfl⟩
    intro r hr
    rcases List.mem_cons.mp hr with rfl | hr
    · simp [hn]
    · exact hne r hr

theorem splitE_ne (r : Reg) (idx : List ℕ) (x : SplitResult) (h : splitE r idx = .ok x) : ∀ a ∈ x.regs, a ≠ [] := by
  unfold splitE at h
  split at h
  · cases h
  · dsimp only at h
    split at h
    · split at h
      · cases h
      · cases h
        simp only [SplitResult.regs, List.forall_mem_cons, List.not_mem_nil, IsEmpty.forall_iff, implies_true, and_true]
        assumption
    · split at h
      · cases h
        simp only [SplitResult.regs, List.forall_mem_cons, List.not_mem_nil, IsEmpty.forall_iff, implies_true, and_true]
        assumption
      · cases h
        simp only [SplitResult.regs, List.forall_mem_cons, List.not_mem_nil, IsEmpty.forall_iff, implies_true, and_true]
        exact ⟨‹_›, ‹_›⟩

/-- registers that are made out of others -/
theorem Passes.regroup {α : Type} {e : Except Fail α} {pre : List Reg} {post : α → List Reg}
    (h : pre.flatten.Nodup → (∀ r ∈ pre, r ≠ []) → ∀ a, e = .ok a → (post a).flatten.Subperm pre.flatten ∧ ∀ r ∈ post a, r ≠ []) :
    Passes (Verif.liftE e : M LocalBuilder α) pre post := by
  refine Passes.assume fun hn hne => ?_
  rintro s L ⟨hs, hl, hp⟩
  cases e with
  | error e => exact Passes.throw e s L ⟨hs, hl, hp⟩
  | ok a =>
    refine ⟨fun b s' he => ?_, fun s' he => (by cases he)⟩
    cases he
    obtain ⟨h1, h2⟩ := h hn hne a rfl
    refine ⟨⟨?_, ?_, hp⟩, spares_refl _ _⟩
    · rw [List.flatten_append] at hs ⊢
      obtain ⟨l, hl, hsub⟩ := h1.append (List.Subperm.refl L.flatten)
      exact (hs.sub hsub).perm hl
    · intro r hr
      rcases List.mem_append.mp hr with hr | hr
      · exact h2 r hr
      · exact hl r (List.mem_append_right _ hr)

theorem Passes.regroupPre {α : Type} {m : M LocalBuilder α} {pre pre' : List Reg} {post : α → List Reg}
    (h : pre.flatten.Subperm pre'.flatten) (hne : ∀ r ∈ pre, r ≠ []) (hm : Passes m pre post) : Passes m pre' post := by
  rintro s L ⟨hs, hl, hp⟩
  refine hm s L ⟨?_, ?_, hp⟩
  · rw [List.flatten_append] at hs ⊢
    obtain ⟨l, hl, hsub⟩ := h.append (List.Subperm.refl L.flatten)
    exact (hs.sub hsub).perm hl
  · intro r hr
    rcases List.mem_append.mp hr with hr | hr
    · exact hne r hr
    · exact hl r (List.mem_append_right _ hr)

instance : PassesR LocalBuilder where
  register n := LocalBuilder.passes_register n
  mergeTwo a b := by
    have e : (mergeTwo a b : M LocalBuilder Reg) = liftE (if (a ++ b).isEmpty then .error .panic else .ok (a ++ b)) := by
      show LocalBuilder.mergeTwo a b = _
      unfold LocalBuilder.mergeTwo Reg.new
      split <;> rfl
    rw [e]
    refine Passes.regroup fun _ _ r h => ?_
    split at h
    · cases h
    · cases h
      refine ⟨by simpa using List.Subperm.refl _, ?_⟩
      rintro r hr rfl
      simp_all
  splitRel r idx hi := by
    have e : (splitRel r idx : M LocalBuilder _) = liftE (splitE r idx) := LawfulReg.splitRel_eq r idx
    rw [e]
    refine Passes.regroup fun hr hne a h => ?_
    refine ⟨?_, splitE_ne r idx a h⟩
    have := (splitE_ok_perm r idx (by simpa using hr) hi a h).1.subperm
    simpa using this

theorem passes_push (r : Reg) (c : CObj) (hc : c.n = r.length) (ho : Stock.Given c) : Passes (LocalBuilder.push r c) [r] fun _ => [r] := by
  rintro s L ⟨h, hne, hp⟩
  refine ⟨fun a s' he => ?_, fun s' he => (by cases he)⟩
  cases he
  have h' : Own s (r ++ L.flatten) := h
  have hm : Stock.Silent → isMeas (r, c) = false := by
    intro hs
    have := Stock.silent hs c ho
    unfold isMeas
    split
    · exact absurd ‹_› (this _)
    · rfl
  refine ⟨⟨Own.pipe h _, hne, ?_⟩, Nat.le_refl _, [(r, c)], rfl, ?_, fun hs => by simp [measCount, hm hs]⟩
  swap
  · intro e he q hq
    rw [List.mem_singleton] at he
    subst he
    exact fun hq' => (List.nodup_append.mp h'.left).2.2 q hq q hq' rfl
  intro e he
  rcases List.mem_append.mp he with he | he
  · exact hp e he
  · rw [List.mem_singleton] at he
    subst he
    exact ⟨hne r (by simp), h'.left.of_append_left, fun q hq => h.lt q (by simp [hq]), hc, Stock.given ho⟩

theorem Own.last {s : LocalBuilder} {L : List ℕ} {r : Reg} (h : Own s L) (hl : s.zeroedQubits.getLast? = some r) :
    Own { s with zeroedQubits := s.zeroedQubits.dropLast } (r ++ L) := by
  obtain ⟨l, hz⟩ : ∃ l, s.zeroedQubits = l ++ [r] := by
    obtain ⟨l, hl'⟩ := List.getLast?_eq_some_iff.mp hl
    exact ⟨l, hl'⟩
  have hp : (L ++ s.zeroedQubits.flatten).Perm ((r ++ L) ++ l.flatten) := by
    rw [hz, List.perm_iff_count]
    intro x
    simp only [List.flatten_append, List.flatten_cons, List.flatten_nil, List.append_nil, List.count_append]
    omega
  have hd : s.zeroedQubits.dropLast = l := by rw [hz]; simp
  refine ⟨?_, ?_, ?_⟩
  · intro q hq
    apply h.pool
    exact List.mem_of_mem_dropLast hq
  · show ((r ++ L) ++ s.zeroedQubits.dropLast.flatten).Nodup
    rw [hd]
    exact hp.nodup_iff.mp h.nodup
  · show ∀ q ∈ (r ++ L) ++ s.zeroedQubits.dropLast.flatten, q < s.n
    rw [hd]
    intro q hq
    exact h.lt q (hp.mem_iff.mpr hq)

theorem Own.give {s : LocalBuilder} {L : List ℕ} {r : Reg} (h : Own s (r ++ L)) :
    Own { s with zeroedQubits := s.zeroedQubits ++ r.map fun q => [q] } L := by
  have hf : (r.map fun q => [q]).flatten = r := by
    clear h
    induction r with
    | nil => rfl
    | cons q r ih => simp [ih]
  have hp : ((r ++ L) ++ s.zeroedQubits.flatten).Perm (L ++ (s.zeroedQubits ++ r.map fun q => [q]).flatten) := by
    rw [List.perm_iff_count]
    intro x
    simp only [List.flatten_append, hf, List.count_append]
    omega
  refine ⟨?_, hp.nodup_iff.mp h.nodup, fun q hq => h.lt q (hp.mem_iff.mpr hq)⟩
  intro a ha
  rcases List.mem_append.mp ha with ha | ha
  · exact h.pool a ha
  · obtain ⟨q, -, rfl⟩ := List.mem_map.mp ha
    rfl

theorem passes_pushAll (c : CObj) (hc : c.n = 1) (ho : Stock.Given c) (rs : List Reg) (hr : ∀ r ∈ rs, r.length = 1) :
    Passes (rs.forM fun r => LocalBuilder.push r c) rs fun _ => rs := by
  induction rs with
  | nil => exact Passes.pure _ (List.Subperm.refl _)
  | cons r rs ih =>
    exact Passes.bind rs (passes_push r c (by rw [hc, hr r (by simp)]) ho) (by qperm) fun _ =>
      ((ih fun r h => hr r (by simp [h])).frame [r]).mono (by qperm) fun _ => by qperm

instance : PassesT LocalBuilder where
  applyCO r c hc := by
    show Passes (LocalBuilder.applyCO r c) _ _
    unfold LocalBuilder.applyCO
    split
    · split
      · rename_i h1 h2
        refine Passes.assume fun hn hne => ?_
        rw [splitAll_eq r (hne r (by simp)) (by simpa using hn), pure_bind]
        have e : (r.map fun q => [q]).flatten = r := by
          clear hn hne h1 h2
          induction r with
          | nil => rfl
          | cons q r ih => simp [ih]
        refine Passes.regroupPre (pre := r.map fun q => [q]) (by simpa [e] using List.Subperm.refl _) (by simp) ?_
        refine Passes.bind [] (passes_pushAll c h2.1 hc (r.map fun q => [q]) (by simp)) (by qperm) fun _ => ?_
        refine Passes.bind [] (passes_mergeRegisters _) (by qperm) fun m => ?_
        exact (passes_unwrap m).mono (by qperm) fun _ => List.Subperm.refl _
      · rename_i h1 h2
        refine Passes.assume fun hn hne => ?_
        have : c.n = r.length := by
          have := List.length_pos_of_ne_nil (hne r (by simp))
          omega
        exact Passes.bind [] (passes_push r c this hc) (by qperm) fun _ => Passes.pure _ (by qperm)
    · exact Passes.throw _
  makeTemp := by
    rintro s L ⟨h, hne, hp⟩
    show (∀ a s', LocalBuilder.makeTempQubit s = .ok a s' → Holds s' ([a] ++ L) ∧ Spares s s' L) ∧
      (∀ s', LocalBuilder.makeTempQubit s = .error .error s' → Left s' L ∧ Scraps s s' L)
    unfold LocalBuilder.makeTempQubit
    rw [bind_ok (get_run s)]
    cases hl : s.zeroedQubits.getLast? with
    | none => exact LocalBuilder.passes_register 1 s L ⟨h, hne, hp⟩
    | some r =>
      refine ⟨fun a s' he => ?_, fun s' he => (by cases he)⟩
      cases he
      refine ⟨⟨Own.last (L := L.flatten) h hl, ?_, hp⟩, Nat.le_refl _, [], by simp, by simp, fun _ => rfl⟩
      intro a ha
      rcases List.mem_cons.mp ha with rfl | ha
      · have := h.pool a (List.mem_of_getLast? hl)
        rintro rfl
        simp at this
      · exact hne a ha
  returnTemp r := by
    show Passes (LocalBuilder.returnTemp r) _ _
    refine Passes.assume fun hn hne => ?_
    unfold LocalBuilder.returnTemp
    rw [splitAll_eq r (hne r (by simp)) (by simpa using hn), pure_bind]
    rintro s L ⟨h, hne, hp⟩
    refine ⟨fun a s' he => ?_, fun s' he => (by cases he)⟩
    cases he
    exact ⟨⟨Own.give (L := L.flatten) h, fun r hr => hne r (List.mem_append_right _ hr), hp⟩, Nat.le_refl _, [], by simp, by simp, fun _ => rfl⟩
  mat _ _ := rfl
  x := ⟨fun _ => Stock.x⟩
  y := ⟨fun _ => Stock.y⟩
  z := ⟨fun _ => Stock.z⟩
  h := ⟨fun _ => Stock.h⟩
  s := ⟨fun _ => Stock.s⟩
  t := ⟨fun _ => Stock.t⟩
  cnot := ⟨fun _ => Stock.cnot⟩

end

/-- the rotations and conditioned application pass ownership on -/
class PassesC (β : Type) [Stock] [Conditionable β] [Ledger β] : Prop extends PassesT β where
  rz : ∀ r θ, Passes (Rotations.rz r θ : M β Reg) [r] fun r => [r]
  rx : ∀ r θ, Passes (Rotations.rx r θ : M β Reg) [r] fun r => [r]
  ry : ∀ r θ, Passes (Rotations.ry r θ : M β Reg) [r] fun r => [r]
  rzRatio : ∀ r q, Passes (Rotations.rzRatio r q : M β Reg) [r] fun r => [r]
  rxRatio : ∀ r q, Passes (Rotations.rxRatio r q : M β Reg) [r] fun r => [r]
  ryRatio : ∀ r q, Passes (Rotations.ryRatio r q : M β Reg) [r] fun r => [r]
  rzPiBy : ∀ r m, Passes (Rotations.rzPiBy r m : M β Reg) [r] fun r => [r]
  rxPiBy : ∀ r m, Passes (Rotations.rxPiBy r m : M β Reg) [r] fun r => [r]
  ryPiBy : ∀ r m, Passes (Rotations.ryPiBy r m : M β Reg) [r] fun r => [r]
  tryCond : ∀ cr r c, Passes (Conditionable.tryCond cr r c : M β _) [cr, r] fun p => [p.1, p.2]

/-- a chain of methods on one register -/
theorem passes_then {β : Type} [Ledger β] {m : M β Reg} {f : Reg → M β Reg} {r : List Reg} (hm : Passes m r fun r => [r])
    (hf : ∀ r, Passes (f r) [r] fun r => [r]) : Passes (m >>= f) r fun r => [r] :=
  Passes.bind [] hm (by qperm) fun r => (hf r).mono (by qperm) fun _ => List.Subperm.refl _

theorem passes_ratio1 {β : Type} [CliffordT β] [Ledger β] (m : ℤ) : Passes (ratio1 m : M β ℚ) [] fun _ => [] := by
  unfold ratio1
  split
  · exact Passes.throw _
  · exact Passes.pure _ (by qperm)

namespace LocalBuilder
variable [Stock]

theorem passes_new (r : Reg) (c : CObj) (h : 0 < r.length → Stock.Given c) :
    Passes (LocalBuilder.applyCO r c) [r] fun r => [r] :=
  Passes.assume fun _ hne => PassesT.applyCO (β := LocalBuilder) r c (h (List.length_pos_of_ne_nil (hne r (by simp))))

theorem passes_rz (r : Reg) (θ : ℝ) : Passes (LocalBuilder.rz r θ) [r] fun r => [r] :=
  (passes_new r _ (Stock.rz _ _)).unwrapM

theorem passes_rzRatio (r : Reg) (q : ℚ) : Passes (LocalBuilder.rzRatio r q) [r] fun r => [r] := passes_rz _ _

theorem passes_rxRatio (r : Reg) (q : ℚ) : Passes (rxRatioDefault LocalBuilder.rzRatio r q) [r] fun r => [r] :=
  passes_then (passes_gate _ r) fun _ => passes_then (passes_rzRatio _ _) fun _ => passes_gate _ _

theorem passes_ryRatio (r : Reg) (q : ℚ) : Passes (ryRatioDefault LocalBuilder.rzRatio r q) [r] fun r => [r] :=
  passes_then (passes_gate _ r) fun _ => passes_then (passes_gate _ _) fun _ => passes_then (passes_rzRatio _ _) fun _ =>
    passes_then (passes_gate _ _) fun _ => passes_sDagger _

theorem passes_piBy {g : Reg → ℚ → M LocalBuilder Reg} (h : ∀ r q, Passes (g r q) [r] fun r => [r]) (r : Reg) (m : ℤ) :
    Passes (piByDefault g r m) [r] fun r => [r] :=
  Passes.bind [r] (passes_ratio1 m) (by qperm) fun q => (h r q).mono (by qperm) fun _ => List.Subperm.refl _

theorem passes_globalPhase (r : Reg) (θ : ℝ) : Passes (LocalBuilder.applyGlobalPhase r θ) [r] fun r => [r] :=
  (passes_new r _ (Stock.phase _ _)).unwrapM

theorem passes_globalPhaseRatio (r : Reg) (q : ℚ) : Passes (LocalBuilder.applyGlobalPhaseRatio r q) [r] fun r => [r] :=
  (passes_new r _ (Stock.phase _ _)).unwrapM

theorem passes_globalPhasePiBy (r : Reg) (m : ℤ) : Passes (LocalBuilder.applyGlobalPhasePiBy r m) [r] fun r => [r] :=
  Passes.bind [r] (passes_ratio1 m) (by qperm) fun q => (passes_globalPhaseRatio r q).mono (by qperm) fun _ => List.Subperm.refl _

theorem passes_rzPiBy (r : Reg) (m : ℤ) : Passes (LocalBuilder.rzPiBy r m) [r] fun r => [r] := by
  unfold LocalBuilder.rzPiBy
  split
  · exact Passes.throw _
  · exact passes_new r _ (Stock.rz _ _)

theorem passes_measured (r : Reg) (o : MObj) (g : LocalBuilder → Reg × ℕ) (hg : ∀ s, (g s).1 = r) :
    Passes (fun s => .ok (g s) { s with pipeline := s.pipeline ++ [(r, ⟨r.length, .meas o⟩)], measurements := s.measurements + 1 } :
      M LocalBuilder (Reg × ℕ)) [r] fun p => [p.1] := by
  rintro s L ⟨h, hne, hp⟩
  refine ⟨fun a s' he => ?_, fun s' he => (by cases he)⟩
  cases he
  have h' : Own s (r ++ L.flatten) := h
  have hr : r ≠ [] := hne r (by simp)
  dsimp only
  rw [hg s]
  refine ⟨⟨⟨h.pool, h.nodup, h.lt⟩, hne, fun e he => ?_⟩, Nat.le_refl _, [(r, ⟨r.length, .meas o⟩)], rfl, fun e he q hq hq' => ?_,
    fun _ => by simp [measCount, isMeas]⟩
  · rcases List.mem_append.mp he with he | he
    · exact hp e he
    · rw [List.mem_singleton] at he
      subst he
      exact ⟨hr, h'.left.of_append_left, fun q hq => h.lt q (by simp [hq]), rfl, Stock.meas _ _ (List.length_pos_of_ne_nil hr)⟩
  · rw [List.mem_singleton] at he
    subst he
    exact (List.nodup_append.mp h'.left).2.2 q hq q hq' rfl

theorem passes_measure (r : Reg) : Passes (LocalBuilder.measure r) [r] fun p => [p.1] :=
  passes_measured r .measurement (fun s => (r, s.measurements)) fun _ => rfl

theorem passes_measureStochastic (r : Reg) : Passes (LocalBuilder.measureStochastic r) [r] fun p => [p.1] :=
  passes_measured r .stochastic (fun s => (r, s.measurements)) fun _ => rfl

theorem passes_condSwapStep (p : Reg × List Reg × List Reg) (q : Reg × Reg) :
    Passes (condSwapStep p q) ([p.1] ++ (p.2.1 ++ p.2.2) ++ [q.1, q.2])
      fun p => [p.1] ++ (p.2.1 ++ p.2.2) := by
  obtain ⟨cr, as, bs⟩ := p
  obtain ⟨a, b⟩ := q
  unfold condSwapStep
  refine Passes.bind (as ++ bs ++ [b]) (PassesR.mergeTwo cr a) (by qperm) fun c => ?_
  refine Passes.bind (as ++ bs) (passes_cnot c b) (by qperm) ?_
  rintro ⟨c, b⟩
  refine Passes.bind (as ++ bs ++ [b]) (passes_splitLast c) (by qperm) ?_
  rintro ⟨c, a⟩
  refine Passes.bind (as ++ bs ++ [b, c]) (passes_unwrap a) (by qperm) fun a => ?_
  refine Passes.bind (as ++ bs ++ [a]) (PassesR.mergeTwo c b) (by qperm) fun c => ?_
  refine Passes.bind (as ++ bs) (passes_cnot c a) (by qperm) ?_
  rintro ⟨c, a⟩
  refine Passes.bind (as ++ bs ++ [a]) (passes_splitLast c) (by qperm) ?_
  rintro ⟨c, b⟩
  refine Passes.bind (as ++ bs ++ [a, c]) (passes_unwrap b) (by qperm) fun b => ?_
  refine Passes.bind (as ++ bs ++ [b]) (PassesR.mergeTwo c a) (by qperm) fun c => ?_
  refine Passes.bind (as ++ bs) (passes_cnot c b) (by qperm) ?_
  rintro ⟨c, b⟩
  refine Passes.bind (as ++ bs ++ [b]) (passes_splitLast c) (by qperm) ?_
  rintro ⟨c, a⟩
  exact Passes.bind (as ++ bs ++ [b, c]) (passes_unwrap a) (by qperm) fun a => Passes.pure _ (by qperm)

theorem passes_condPhase {g : Reg → M LocalBuilder Reg} (hg : ∀ r, Passes (g r) [r] fun r => [r]) (cr r : Reg) :
    Passes (condPhase g cr r) [cr, r] fun p => [p.1, p.2] := by
  unfold condPhase
  refine Passes.bind [] (PassesR.mergeTwo cr r) (by qperm) fun cr => ?_
  refine Passes.bind [cr] (PassesT.makeTemp (β := LocalBuilder)) (by qperm) fun tq => ?_
  refine Passes.bind [] (passes_toffoli cr tq) (by qperm) ?_
  rintro ⟨cr, tq⟩
  refine Passes.bind [cr] (hg tq) (by qperm) fun tq => ?_
  refine Passes.bind [] (passes_toffoli cr tq) (by qperm) ?_
  rintro ⟨cr, tq⟩
  refine Passes.bind [cr] (PassesT.returnTemp tq) (by qperm) fun _ => ?_
  refine Passes.bind [] (passes_splitLast cr) (by qperm) ?_
  rintro ⟨cr, r⟩
  exact Passes.bind [cr] (passes_unwrap r) (by qperm) fun r => Passes.pure _ (by qperm)

theorem passes_condSwap (cr r : Reg) (n : ℕ) : Passes (do
    let rs ← splitAll r
    let (cr, ras, rbs) ← ((rs.take (n / 2)).zip (rs.drop (n / 2))).foldlM condSwapStep (cr, [], [])
    let m ← mergeRegisters (ras ++ rbs)
    let r ← unwrapO m
    pure (cr, r) : M LocalBuilder _) [cr, r] fun p => [p.1, p.2] := by
  refine Passes.bind [cr] (passes_splitAll r) (by qperm) fun rs => ?_
  refine Passes.bind [] ((Passes.foldlM (fun p : Reg × List Reg × List Reg => [p.1] ++ (p.2.1 ++ p.2.2))
    (fun p : Reg × Reg => [p.1, p.2]) _ (fun p q _ => passes_condSwapStep p q) (cr, [], [])).mono (pre' := rs ++ [cr]) ?_
    fun _ => List.Subperm.refl _) (by qperm) ?_
  · have h1 := subperm_count.mp (zip_flatten_sub (rs.take (n / 2)) (rs.drop (n / 2)))
    refine subperm_count.mpr fun x => ?_
    have := h1 x
    have e : rs.count x = (rs.take (n / 2)).count x + (rs.drop (n / 2)).count x := by
      rw [← List.count_append, List.take_append_drop]
    simp only [List.count_append, count_cons_cnt, List.count_nil, List.cons_append, List.nil_append] at this ⊢
    omega
  · rintro ⟨c, as, bs⟩
    refine Passes.bind [c] (passes_mergeRegisters (as ++ bs)) (by qperm) fun m => ?_
    exact Passes.bind [c] (passes_unwrap m) (by qperm) fun r => Passes.pure _ (by qperm)

theorem passes_tryCond (cr r : Reg) (co : CObj) : Passes (LocalBuilder.tryCond cr r co) [cr, r] fun p => [p.1, p.2] := by
  unfold LocalBuilder.tryCond
  split
  · exact passes_toffoli cr r
  · refine Passes.bind [cr] (passes_gate _ r) (by qperm) fun r => ?_
    refine Passes.bind [] (passes_toffoli cr r) (by qperm) ?_
    rintro ⟨cr, r⟩
    exact Passes.bind [cr] (passes_sDagger r) (by qperm) fun r => Passes.pure _ (by qperm)
  · refine Passes.bind [cr] (passes_gate _ r) (by qperm) fun r => ?_
    refine Passes.bind [] (passes_toffoli cr r) (by qperm) ?_
    rintro ⟨cr, r⟩
    exact Passes.bind [cr] (passes_gate _ r) (by qperm) fun r => Passes.pure _ (by qperm)
  · refine Passes.bind [cr] (passes_piBy passes_ryRatio r 4) (by qperm) fun r => ?_
    refine Passes.bind [] (passes_toffoli cr r) (by qperm) ?_
    rintro ⟨cr, r⟩
    exact Passes.bind [cr] (passes_piBy passes_ryRatio r (-4)) (by qperm) fun r => Passes.pure _ (by qperm)
  · exact passes_condPhase (fun r => passes_gate _ r) cr r
  · exact passes_condPhase (fun r => passes_gate _ r) cr r
  · dsimp only
    split
    · exact Passes.bind [cr, r] (Passes.throw (pre := []) (post := fun _ => []) _) (by qperm) fun _ => passes_condSwap cr r _
    · exact passes_condSwap cr r _
  · have h : Passes (do
        let (ra, r) ← splitFirst r
        let ra ← unwrapO ra
        let cr ← RegOps.mergeTwo cr ra
        let (cr, r) ← toffoli cr r
        let (cr, ra) ← splitLast cr
        let ra ← unwrapO ra
        let r ← RegOps.mergeTwo ra r
        pure (cr, r) : M LocalBuilder _) [cr, r] fun p => [p.1, p.2] := by
      refine Passes.bind [cr] (passes_splitFirst r) (by qperm) ?_
      rintro ⟨ra, r⟩
      refine Passes.bind [cr, r] (passes_unwrap ra) (by qperm) fun ra => ?_
      refine Passes.bind [r] (PassesR.mergeTwo cr ra) (by qperm) fun cr => ?_
      refine Passes.bind [] (passes_toffoli cr r) (by qperm) ?_
      rintro ⟨cr, r⟩
      refine Passes.bind [r] (passes_splitLast cr) (by qperm) ?_
      rintro ⟨cr, ra⟩
      refine Passes.bind [cr, r] (passes_unwrap ra) (by qperm) fun ra => ?_
      exact Passes.bind [cr] (PassesR.mergeTwo ra r) (by qperm) fun r => Passes.pure _ (by qperm)
    split
    · exact Passes.bind [cr, r] (Passes.throw (pre := []) (post := fun _ => []) _) (by qperm) fun _ => h
    · exact h
  · have rest : ∀ cr tq : Reg, Passes (do
        let (cr, tq) ← toffoli cr tq
        TempBuilder.returnTemp tq
        pure (cr, r) : M LocalBuilder _) [cr, tq, r] fun p => [p.1, p.2] := by
      intro cr tq
      refine Passes.bind [r] (passes_toffoli cr tq) (by qperm) ?_
      rintro ⟨cr, tq⟩
      exact Passes.bind [cr, r] (PassesT.returnTemp tq) (by qperm) fun _ => Passes.pure _ (by qperm)
    refine Passes.bind [cr, r] (PassesT.makeTemp (β := LocalBuilder)) (by qperm) fun tq => ?_
    refine Passes.bind [r] (passes_toffoli cr tq) (by qperm) ?_
    rintro ⟨cr, tq⟩
    dsimp only
    split
    · exact Passes.bind [cr, r] (passes_rz _ _) (by qperm) fun tq => Passes.bind [cr, r] (passes_globalPhase _ _) (by qperm)
        fun tq => (rest cr tq).mono (by qperm) fun _ => List.Subperm.refl _
    · exact Passes.bind [cr, r] (passes_rzRatio _ _) (by qperm) fun tq => Passes.bind [cr, r] (passes_globalPhaseRatio _ _)
        (by qperm) fun tq => (rest cr tq).mono (by qperm) fun _ => List.Subperm.refl _
  · have rest : ∀ c tq : Reg, Passes (do
        let (c, tq) ← toffoli c tq
        TempBuilder.returnTemp tq
        match ← RegOps.splitRel c (List.range cr.length) with
        | .split cr r => pure (cr, r)
        | .selected _ => throw .panic
        | .unselected _ => throw .panic : M LocalBuilder _) [c, tq] fun p => [p.1, p.2] := by
      intro c tq
      refine Passes.bind [] (passes_toffoli c tq) (by qperm) ?_
      rintro ⟨c, tq⟩
      refine Passes.bind [c] (PassesT.returnTemp tq) (by qperm) fun _ => ?_
      refine Passes.bind [] (PassesR.splitRel c (List.range cr.length) List.nodup_range) (by qperm) fun a => ?_
      rcases a with a | a | ⟨a, b⟩
      · exact Passes.throw _
      · exact Passes.throw _
      · exact Passes.pure _ (by qperm)
    refine Passes.bind [] (PassesR.mergeTwo cr r) (by qperm) fun c => ?_
    refine Passes.bind [c] (PassesT.makeTemp (β := LocalBuilder)) (by qperm) fun tq => ?_
    refine Passes.bind [] (passes_toffoli c tq) (by qperm) ?_
    rintro ⟨c, tq⟩
    dsimp only
    split
    · exact Passes.bind [c] (passes_rz _ _) (by qperm) fun tq => (rest c tq).mono (by qperm) fun _ => List.Subperm.refl _
    · exact Passes.bind [c] (passes_rzRatio _ _) (by qperm) fun tq => (rest c tq).mono (by qperm) fun _ => List.Subperm.refl _
  · exact Passes.throw _
  · exact Passes.throw _

end LocalBuilder

instance [Stock] : PassesC LocalBuilder where
  rz := LocalBuilder.passes_rz
  rx r _ := passes_then (passes_gate _ r) fun _ => passes_then (LocalBuilder.passes_rz _ _) fun _ => passes_gate _ _
  ry r _ := passes_then (passes_sDagger r) fun _ => passes_then (passes_gate _ _) fun _ =>
    passes_then (LocalBuilder.passes_rz _ _) fun _ => passes_then (passes_gate _ _) fun _ => passes_gate _ _
  rzRatio := LocalBuilder.passes_rzRatio
  rxRatio := LocalBuilder.passes_rxRatio
  ryRatio := LocalBuilder.passes_ryRatio
  rzPiBy := LocalBuilder.passes_rzPiBy
  rxPiBy := LocalBuilder.passes_piBy LocalBuilder.passes_rxRatio
  ryPiBy := LocalBuilder.passes_piBy LocalBuilder.passes_ryRatio
  tryCond := LocalBuilder.passes_tryCond

/-! ## `Conditioned` -/

namespace Conditioned
variable {β α : Type} [Ledger β]

theorem passes_onParent {m : M β α} {pre : List Reg} {post : α → List Reg} (h : Passes m pre post) :
    Passes (onParent m : M (Conditioned β) α) pre post := by
  rintro ⟨p, c⟩ L (hs : Holds p (c.toList ++ (pre ++ L)))
  have hs' : Holds p (pre ++ (c.toList ++ L)) := sub (by qperm) hs
  obtain ⟨ho, he⟩ := h p _ hs'
  have hc : L.Subperm (c.toList ++ L) := (List.sublist_append_right _ _).subperm
  show (∀ a s', onParent m ⟨p, c⟩ = .ok a s' → Holds s'.parent (s'.cr.toList ++ (post a ++ L)) ∧ Spares p s'.parent L) ∧
    (∀ s', onParent m ⟨p, c⟩ = .error .error s' → Left s'.parent (s'.cr.toList ++ L) ∧ Scraps p s'.parent L)
  unfold onParent
  rcases hm : m p with ⟨a, p'⟩ | ⟨e, p'⟩
  · simp only [hm]
    refine ⟨fun a' s' h => ?_, fun s' h => (by cases h)⟩
    cases h
    exact ⟨sub (by qperm) (ho a p' hm).1, spares_sub hc (ho a p' hm).2⟩
  · simp only [hm]
    refine ⟨fun a' s' h => (by cases h), fun s' h => ?_⟩
    cases h
    exact ⟨(he p' hm).1, scraps_sub hc (he p' hm).2⟩

theorem passes_takeCr : Passes (takeCr : M (Conditioned β) Reg) [] fun r => [r] := by
  rintro ⟨p, c⟩ L (hs : Holds p (c.toList ++ L))
  cases c with
  | none => exact ⟨fun a s' h => (by cases h), fun s' h => (by cases h)⟩
  | some c =>
    refine ⟨fun a s' h => ?_, fun s' h => (by cases h)⟩
    cases h
    exact ⟨hs, spares_refl p L⟩

theorem passes_putCr (cr : Reg) : Passes (putCr cr : M (Conditioned β) Unit) [cr] fun _ => [] := by
  rintro ⟨p, c⟩ L (hs : Holds p (c.toList ++ ([cr] ++ L)))
  refine ⟨fun a s' h => ?_, fun s' h => (by cases h)⟩
  cases h
  show Holds p ([cr] ++ L) ∧ Spares p p L
  exact ⟨sub (by qperm) hs, spares_refl p L⟩

theorem passes_conditioned {m : M (Conditioned β) α} {pre : List Reg} {post : α → List Reg} (h : Passes m pre post) (cr : Reg) :
    Passes (conditioned cr m) ([cr] ++ pre) fun p => [p.2] ++ post p.1 := by
  intro s L hs
  have hs' : Holds (⟨s, some cr⟩ : Conditioned β) (pre ++ L) := by
    show Holds s ([cr] ++ (pre ++ L))
    rw [← List.append_assoc]
    exact hs
  obtain ⟨ho, he⟩ := h _ L hs'
  unfold conditioned
  rcases hm : m ⟨s, some cr⟩ with ⟨a, ⟨p', c'⟩⟩ | ⟨e, ⟨p', c'⟩⟩
  · simp only
    obtain ⟨(h1 : Holds p' (c'.toList ++ (post a ++ L))), (h2 : Spares s p' L)⟩ := ho _ _ hm
    cases c' with
    | none => exact ⟨fun a' s' h => (by cases h), fun s' h => (by cases h)⟩
    | some c' =>
      refine ⟨fun a' s' h => ?_, fun s' h => (by cases h)⟩
      cases h
      show Holds p' ([c'] ++ post a ++ L) ∧ _
      rw [List.append_assoc]
      exact ⟨h1, h2⟩
  · simp only
    refine ⟨fun a' s' h => (by cases h), fun s' h => ?_⟩
    cases h
    obtain ⟨(h1 : Left p' (c'.toList ++ L)), (h2 : Scraps s p' L)⟩ := he _ hm
    exact ⟨left_sub (List.sublist_append_right _ _).subperm h1, h2⟩

end Conditioned

section
variable {β : Type} [Ledger β]
open Conditioned

instance [RegOps β] [PassesR β] : PassesR (Conditioned β) where
  register n := passes_onParent (PassesR.register n)
  mergeTwo a b := passes_onParent (PassesR.mergeTwo a b)
  splitRel r idx h := passes_onParent (PassesR.splitRel r idx h)

instance [Stock] [Conditionable β] [PassesC β] : PassesT (Conditioned β) where
  applyCO r c _ := by
    show Passes (Conditioned.applyCO r c) _ _
    unfold Conditioned.applyCO
    refine Passes.bind [r] passes_takeCr (by qperm) fun cr => ?_
    refine Passes.bind [] (passes_onParent (PassesC.tryCond cr r c)) (by qperm) ?_
    rintro ⟨cr, r⟩
    exact Passes.bind [r] (passes_putCr cr) (by qperm) fun _ => Passes.pure _ (by qperm)
  makeTemp := passes_onParent PassesT.makeTemp
  returnTemp r := passes_onParent (PassesT.returnTemp r)
  mat n data := PassesT.mat (β := β) n data
  x := ⟨fun b => Stocked.ok (mk := CliffordT.makeX) b.parent⟩
  y := ⟨fun b => Stocked.ok (mk := CliffordT.makeY) b.parent⟩
  z := ⟨fun b => Stocked.ok (mk := CliffordT.makeZ) b.parent⟩
  h := ⟨fun b => Stocked.ok (mk := CliffordT.makeH) b.parent⟩
  s := ⟨fun b => Stocked.ok (mk := CliffordT.makeS) b.parent⟩
  t := ⟨fun b => Stocked.ok (mk := CliffordT.makeT) b.parent⟩
  cnot := ⟨fun b => Stocked.ok (mk := CliffordT.makeCnot) b.parent⟩

theorem passes_splitCr [RegOps β] [PassesR β] (cr r : Reg) (n : ℕ) : Passes (do
    match ← RegOps.splitRel cr (List.range n) with
    | .split cr ccr => do
      putCr ccr
      pure (cr, r)
    | .selected _ => throw .panic
    | .unselected _ => throw .panic : M (Conditioned β) (Reg × Reg)) [cr, r] fun p => [p.1, p.2] := by
  refine Passes.bind [r] (PassesR.splitRel cr (List.range n) List.nodup_range) (by qperm) fun a => ?_
  rcases a with a | a | ⟨a, b⟩
  · exact Passes.throw _
  · exact Passes.throw _
  · exact Passes.bind [a, r] (passes_putCr b) (by qperm) fun _ => Passes.pure _ (by qperm)

instance [Stock] [Conditionable β] [PassesC β] : PassesC (Conditioned β) where
  rz r θ := passes_onParent (PassesC.rz r θ)
  rx r θ := passes_onParent (PassesC.rx r θ)
  ry r θ := passes_onParent (PassesC.ry r θ)
  rzRatio r θ := passes_onParent (PassesC.rzRatio r θ)
  rxRatio r θ := passes_onParent (PassesC.rxRatio r θ)
  ryRatio r θ := passes_onParent (PassesC.ryRatio r θ)
  rzPiBy r θ := passes_onParent (PassesC.rzPiBy r θ)
  rxPiBy r θ := passes_onParent (PassesC.rxPiBy r θ)
  ryPiBy r θ := passes_onParent (PassesC.ryPiBy r θ)
  tryCond cr r c := by
    show Passes (Conditioned.tryCond cr r c) _ _
    unfold Conditioned.tryCond
    refine Passes.bind [cr, r] passes_takeCr (by qperm) fun ccr => ?_
    refine Passes.bind [r] (PassesR.mergeTwo cr ccr) (by qperm) fun c' => ?_
    refine Passes.bind [] (passes_onParent (PassesC.tryCond c' r c)) (by qperm) ?_
    rintro ⟨c', r⟩
    exact (passes_splitCr c' r cr.length).mono (by qperm) fun _ => List.Subperm.refl _

end

end Verif
