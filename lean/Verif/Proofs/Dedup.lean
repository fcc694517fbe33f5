import Verif.Proofs.Keep
import Verif.Proofs.History

/-!
# Registers that hold a qubit twice

`split_register_relative` with a repeated index makes such registers (C24). Every method that takes registers apart drops
the repetitions, so that it does what it does on the register without them, or panics.
-/

namespace Verif
open Classical RegOps LawfulReg

/-- the qubits of a register in order of their first occurrence -/
def dd (r : Reg) : Reg := r.eraseDups

theorem mem_dd {r : Reg} {q : ℕ} : q ∈ dd r ↔ q ∈ r := List.mem_eraseDups

theorem dd_nil : dd [] = [] := List.eraseDups_nil

theorem dd_cons (q : ℕ) (r : Reg) : dd (q :: r) = q :: dd (r.filter fun b => !b == q) := List.eraseDups_cons

theorem dd_nodup (r : Reg) : (dd r).Nodup := by
  induction hn : r.length using Nat.strong_induction_on generalizing r with
  | _ n ih =>
    cases r with
    | nil => rw [dd_nil]; exact List.nodup_nil
    | cons q r =>
      rw [dd_cons, List.nodup_cons]
      refine ⟨?_, ih _ (by subst hn; simp only [List.length_cons]; exact Nat.lt_succ_of_le (List.length_filter_le _ _)) _ rfl⟩
      rw [mem_dd]; simp

theorem dd_of_nodup {r : Reg} (h : r.Nodup) : dd r = r := by
  induction r with
  | nil => exact dd_nil
  | cons q r ih =>
    obtain ⟨h1, h2⟩ := List.nodup_cons.mp h
    rw [dd_cons, show (r.filter fun b => !b == q) = r from ?_, ih h2]
    rw [List.filter_eq_self]
    intro a ha
    simp only [Bool.not_eq_true', beq_eq_false_iff_ne]
    rintro rfl; exact h1 ha

theorem dd_ne {r : Reg} (h : r ≠ []) : dd r ≠ [] := by
  cases r with
  | nil => exact absurd rfl h
  | cons q r => rw [dd_cons]; simp

theorem dd_append {a b : Reg} (h : ∀ q ∈ a, q ∉ b) : dd (a ++ b) = dd a ++ dd b := by
  unfold dd
  rw [List.eraseDups_append]
  congr 2
  unfold List.removeAll
  rw [List.filter_eq_self]
  intro x hx
  simp
  exact fun hxa => h x hxa hx

theorem dd_single (q : ℕ) : dd [q] = [q] := dd_of_nodup (by simp)

theorem dd_dd (r : Reg) : dd (dd r) = dd r := dd_of_nodup (dd_nodup r)

theorem splitE_head_dd (q : ℕ) (b : Reg) :
    splitE (q :: b) [0] = if (b.filter fun o => !o == q) = [] then .ok (.selected [q])
      else .ok (.split [q] (b.filter fun o => !o == q)) := by
  have e : ((q :: b).filter fun o => !([q] : List ℕ).contains o) = b.filter fun o => !o == q := by
    rw [List.filter_cons_of_neg (by simp)]
    apply List.filter_congr
    intro o _
    by_cases h : o = q <;> simp [h]
  unfold splitE
  rw [show LocalBuilder.selectIndices (q :: b) [0] = some [q] from by simp [LocalBuilder.selectIndices]]
  simp only [e]
  rw [if_neg (by simp)]

section
variable {β : Type} [RegOps β] [LawfulReg β]

theorem splitHelper_dd : ∀ (k : ℕ) (r : Reg) (acc : List Reg), r ≠ [] → r.length ≤ k →
    (splitHelper k r acc : M β _) = pure (acc ++ (dd r).map fun q => [q]) := by
  intro k
  induction k with
  | zero => intro r acc hr hk; exact absurd (List.length_eq_zero_iff.mp (Nat.le_zero.mp hk)) hr
  | succ k ih =>
    intro r acc hr hk
    cases r with
    | nil => exact absurd rfl hr
    | cons q r =>
      rw [splitHelper, splitRel_eq, splitE_head_dd, dd_cons]
      by_cases h : (r.filter fun o => !o == q) = []
      · rw [if_pos h, h, dd_nil]
        simp
      · rw [if_neg h]
        simp only [liftE_ok, pure_bind]
        rw [ih _ _ h (by have := List.length_filter_le (fun o => !o == q) r; simp at hk; omega)]
        simp

theorem splitAll_dd (r : Reg) (hr : r ≠ []) : (splitAll r : M β _) = pure ((dd r).map fun q => [q]) := by
  unfold splitAll
  rw [splitHelper_dd _ r [] hr (by omega)]; rfl

theorem splitAll_dd' (r : Reg) (hr : r ≠ []) : (splitAll r : M β _) = splitAll (dd r) := by
  rw [splitAll_dd r hr, splitAll_dd _ (dd_ne hr), dd_dd]

end

theorem applyCO_dd_emits (r : Reg) (hr : r ≠ []) (o : ObjType) :
    Emits (LocalBuilder.applyCO r ⟨1, o⟩) (dd r) ((dd r).map fun q => ([q], ⟨1, o⟩)) := by
  by_cases h : r.length > 1
  · unfold LocalBuilder.applyCO
    rw [if_pos (Or.inl rfl), if_pos ⟨rfl, h⟩, splitAll_dd r hr]
    simp only [pure_bind]
    refine Emits.cast (Emits.bind (forM_push_emits _ _) (q := []) (c := dd r) ?_) rfl ?_
    · rw [mergeSingles _ (dd_ne hr)]; exact Emits.pure _
    · simp [List.map_map, Function.comp_def]
  · obtain ⟨q, rfl⟩ := List.length_eq_one_iff.mp (show r.length = 1 by
      have := List.length_pos_of_ne_nil hr; omega)
    rw [dd_single]
    exact applyCO_one_emits [q] hr (by simp) o

theorem Emits.ext {α : Type} {m m' : M LocalBuilder α} {a : α} {seg : Pipeline} (h : Emits m a seg) (h' : Emits m' a seg) :
    m = m' := funext fun s => (h s).trans (h' s).symm

theorem applyCO_dd (r : Reg) (hr : r ≠ []) (o : ObjType) :
    LocalBuilder.applyCO r ⟨1, o⟩ = LocalBuilder.applyCO (dd r) ⟨1, o⟩ := by
  have h2 := applyCO_dd_emits (dd r) (dd_ne hr) o
  rw [dd_dd] at h2
  exact (applyCO_dd_emits r hr o).ext h2

theorem gate_dd (mk : LocalBuilder → CObj) (h1 : ∀ s, (mk s).n = 1) (r : Reg) (hr : r ≠ []) : gate mk r = gate mk (dd r) := by
  unfold gate
  funext s
  rw [bind_ok (get_run s), bind_ok (get_run s)]
  have e : (⟨1, (mk s).object⟩ : CObj) = mk s := by rw [← h1 s]
  have := applyCO_dd r hr (mk s).object
  rw [e] at this
  show unwrapM (LocalBuilder.applyCO r (mk s)) s = unwrapM (LocalBuilder.applyCO (dd r) (mk s)) s
  rw [this]

theorem named_dd (g : Named) (r : Reg) (hr : r ≠ []) : g.run r = g.run (dd r) := by
  have z : (Gate.z r : M LocalBuilder Reg) = Gate.z (dd r) := gate_dd _ (fun _ => rfl) r hr
  have sd : (sDagger r : M LocalBuilder Reg) = sDagger (dd r) := by unfold sDagger; rw [z]
  cases g
  · exact gate_dd _ (fun _ => rfl) r hr
  · exact gate_dd _ (fun _ => rfl) r hr
  · exact z
  · exact gate_dd _ (fun _ => rfl) r hr
  · exact gate_dd _ (fun _ => rfl) r hr
  · exact gate_dd _ (fun _ => rfl) r hr
  · exact sd
  · show (tDagger r : M LocalBuilder Reg) = tDagger (dd r)
    unfold tDagger; rw [sd]

theorem h_dd (r : Reg) (hr : r ≠ []) : (Gate.h r : M LocalBuilder Reg) = Gate.h (dd r) := named_dd .h r hr

theorem cnot_dd (c r : Reg) (hr : r ≠ []) : (cnot c r : M LocalBuilder _) = cnot c (dd r) := by
  unfold cnot
  rw [splitAll_dd' r hr]

theorem basicToffoli_dd (c r : Reg) (hr : r ≠ []) : (basicToffoli c r : M LocalBuilder _) = basicToffoli c (dd r) := by
  unfold basicToffoli
  rw [h_dd r hr]

/-- two equal controls -/
theorem basicToffoli_same (a : ℕ) (r : Reg) (s : LocalBuilder) : basicToffoli [a, a] r s = .error .panic s := by
  unfold basicToffoli
  rw [if_pos (by rfl), splitRel_eq, splitE_head_dd, if_pos (by simp)]
  rfl

/-! ## Toffoli -/

theorem toffoliF_one (j : ℕ) (c : ℕ) (r : Reg) : (toffoliF (j + 1) [c] r : M LocalBuilder _) = cnot [c] r := by
  rw [toffoliF, if_pos (by rfl)]

theorem toffoliF_two (j : ℕ) (a b : ℕ) (r : Reg) :
    (toffoliF (j + 1) [a, b] r : M LocalBuilder _) = basicToffoli [a, b] r := by
  rw [toffoliF, if_neg (by simp), if_pos (by rfl)]

/-- enough fuel is enough -/
theorem toffoliF_fuel (k : ℕ) : ∀ (k' : ℕ) (cr r L : List ℕ) (s : LocalBuilder), cr.length ≤ k → cr.length ≤ k' → cr ≠ [] → r ≠ [] →
    Own s (cr ++ r ++ L) → toffoliF (k + 1) cr r s = toffoliF (k' + 1) cr r s := by
  induction k with
  | zero => intro k' cr r L s h _ hne; exact absurd (List.length_eq_zero_iff.mp (Nat.le_zero.mp h)) hne
  | succ k ih =>
    intro k' cr r L s hk hk' hcr hr ho
    have hnd : (cr ++ r).Nodup := (List.nodup_append.mp ho.left).1
    match cr, hcr with
    | [c], _ => rw [toffoliF_one, toffoliF_one]
    | [a, b], _ => rw [toffoliF_two, toffoliF_two]
    | a :: b :: c :: cs, _ =>
      obtain _ | k' := k'
      · simp at hk'
      have hsp : splitE (a :: b :: c :: cs) [0, 1] = .ok (.split [a, b] (c :: cs)) :=
        splitE_prefix [a, b] (c :: cs) (List.nodup_append.mp hnd).1 (by simp) (by simp)
      have more : ∀ j, (toffoliF (j + 1) (a :: b :: c :: cs) r : M LocalBuilder _) = (do
          let tr ← TempBuilder.makeTempQubit
          let (crhead, tr) ← unwrapM (toffoliF j [a, b] tr)
          let cr ← mergeTwo (c :: cs) tr
          let (cr, r) ← unwrapM (toffoliF j cr r)
          let (crtail, tr) ← splitLast cr
          let tr ← unwrapO tr
          let (crhead, tr) ← unwrapM (toffoliF j crhead tr)
          TempBuilder.returnTemp tr
          let cr ← mergeTwo crhead crtail
          pure (cr, r) : M LocalBuilder (Reg × Reg)) := by
        intro j
        rw [toffoliF, if_neg (by simp), if_neg (by simp), LawfulReg.splitRel_eq, hsp]
        rfl
      rw [more, more]
      obtain ⟨t, s1, e1, o1, p1, n1, m1, k1⟩ := makeTemp_local ho
      have perm1 : (t :: (a :: b :: c :: cs ++ r ++ L)).Perm ([a, b] ++ [t] ++ (c :: cs ++ r ++ L)) := by
        simp only [List.cons_append, List.nil_append]
        exact (List.Perm.swap a t _).trans (List.Perm.cons a (List.Perm.swap b t _))
      have nabt : (a :: b :: [t]).Nodup := (List.nodup_append.mp (o1.perm perm1).left).1
      have two := fun j => toffoliF_two j a b [t]
      have e1' : (TempBuilder.makeTempQubit : M LocalBuilder Reg) s = .ok [t] s1 := e1
      rw [bind_ok e1', bind_ok e1']
      have hk2 : 2 ≤ k := by simp at hk; omega
      have hk2' : 2 ≤ k' := by simp at hk'; omega
      obtain ⟨k, rfl⟩ : ∃ j, k = j + 1 := ⟨k - 1, by omega⟩
      obtain ⟨k', rfl⟩ : ∃ j, k' = j + 1 := ⟨k' - 1, by omega⟩
      rw [two, two]
      have e2 := basicToffoli_emits a b [t] (by simp) nabt s1
      rw [bind_ok (unwrapM_ok e2), bind_ok (unwrapM_ok e2)]
      simp only
      rw [LawfulReg.mergeTwo_eq _ _ (by simp), pure_bind, pure_bind]
      set s2 : LocalBuilder := { s1 with pipeline := s1.pipeline ++ basicToffoliSeg a b [t] } with hs2
      have o2 : Own s2 ([a, b] ++ [t] ++ (c :: cs ++ r ++ L)) := (o1.perm perm1).pipe _
      have perm2 : ([a, b] ++ [t] ++ (c :: cs ++ r ++ L)).Perm (((c :: cs) ++ [t]) ++ r ++ ([a, b] ++ L)) := by
        have q1 : ([a, b] ++ [t] ++ (c :: cs ++ r ++ L)).Perm ((c :: cs ++ r ++ L) ++ ([a, b] ++ [t])) :=
          List.perm_append_comm
        refine q1.trans ?_
        simp only [List.append_assoc]
        apply List.Perm.append_left
        have q2 : (r ++ (L ++ ([a, b] ++ [t]))).Perm ((r ++ (L ++ [a, b])) ++ [t]) := by
          simp
        refine q2.trans (List.perm_append_comm.trans ?_)
        apply List.Perm.append_left
        apply List.Perm.append_left
        exact List.perm_append_comm
      obtain ⟨s3, e3, -, o3, v3⟩ := toffoliF_does (fun _ => 0) (k + 1) ((c :: cs) ++ [t]) r ([a, b] ++ L) s2
        (by simp at hk ⊢; omega) (by simp) hr (o2.perm perm2)
      have e3' := (ih (k' + 1) ((c :: cs) ++ [t]) r ([a, b] ++ L) s2 (by simp at hk ⊢; omega) (by simp at hk' ⊢; omega)
        (by simp) hr (o2.perm perm2)).symm.trans e3
      rw [bind_ok (unwrapM_ok e3), bind_ok (unwrapM_ok e3')]
      simp only
      have hctn : ((c :: cs) ++ [t]).Nodup := by
        have := (o2.perm perm2).left
        exact (List.nodup_append.mp (List.nodup_append.mp this).1).1
      rw [splitLast_eq (c :: cs) t hctn (by simp)]
      simp only [pure_bind, unwrapO_some]
      rw [two, two]

theorem split_pair (a b : ℕ) (tl : Reg) :
    splitE (a :: b :: tl) [0, 1] = if (tl.filter fun o => !([a, b] : List ℕ).contains o) = [] then .ok (.selected [a, b])
      else .ok (.split [a, b] (tl.filter fun o => !([a, b] : List ℕ).contains o)) := by
  have e : ((a :: b :: tl).filter fun o => !([a, b] : List ℕ).contains o) = tl.filter fun o => !([a, b] : List ℕ).contains o := by
    rw [List.filter_cons_of_neg (by simp), List.filter_cons_of_neg (by simp)]
  unfold splitE
  rw [show LocalBuilder.selectIndices (a :: b :: tl) [0, 1] = some [a, b] from by simp [LocalBuilder.selectIndices]]
  simp only [e]
  rw [if_neg (by simp)]

theorem dd_pair (a b : ℕ) (hab : a ≠ b) (tl : Reg) :
    dd (a :: b :: tl) = a :: b :: dd (tl.filter fun o => !([a, b] : List ℕ).contains o) := by
  rw [dd_cons, List.filter_cons_of_pos (by simpa using hab.symm), dd_cons, List.filter_filter]
  congr 3
  apply List.filter_congr
  intro o _
  by_cases h1 : o = a <;> by_cases h2 : o = b <;> simp [h1, h2]

/-- Toffoli with repeated qubits: a panic, or the same as without the repetitions. -/
theorem toffoliF_dd (k : ℕ) : ∀ (cr r L : List ℕ) (s : LocalBuilder), cr.length < k → cr ≠ [] → r ≠ [] → Own s (dd cr ++ dd r ++ L) →
    (¬ cr.Nodup ∧ ∃ s', toffoliF k cr r s = .error .panic s') ∨ toffoliF k cr r s = toffoliF k (dd cr) (dd r) s := by
  induction k with
  | zero => intro cr r L s h; exact absurd h (Nat.not_lt_zero _)
  | succ k ih =>
    intro cr r L s hk hcr hr ho
    match cr, hcr with
    | [c], _ =>
      right
      rw [dd_single, toffoliF_one, toffoliF_one, cnot_dd _ r hr]
    | [a, b], _ =>
      by_cases hab : a = b
      · subst hab
        left
        rw [toffoliF_two, basicToffoli_same]
        exact ⟨by simp, _, rfl⟩
      · right
        rw [dd_of_nodup (r := [a, b]) (by simpa using hab), toffoliF_two, toffoliF_two,
          basicToffoli_dd _ r hr]
    | a :: b :: c :: cs, _ =>
      set rem := (c :: cs).filter fun o => !([a, b] : List ℕ).contains o with hrem
      by_cases h0 : rem = []
      · left
        rw [toffoliF, if_neg (by simp), if_neg (by simp), LawfulReg.splitRel_eq, split_pair, if_pos h0]
        refine ⟨fun hnd => ?_, _, rfl⟩
        have : c ∉ rem := by rw [h0]; simp
        rw [hrem, List.mem_filter] at this
        simp at this
        simp only [List.nodup_cons, List.mem_cons, not_or] at hnd
        rcases eq_or_ne c a with rfl | h
        · exact hnd.1.2.1 rfl
        · exact hnd.2.1.1 (this h).symm
      obtain ⟨t, s1, e1, o1, p1, n1, m1, k1⟩ := makeTemp_local ho
      have e1' : (TempBuilder.makeTempQubit : M LocalBuilder Reg) s = .ok [t] s1 := e1
      have start : toffoliF (k + 1) (a :: b :: c :: cs) r s = (do
          let (crhead, tr) ← unwrapM (toffoliF k [a, b] [t])
          let cr ← mergeTwo rem tr
          let (cr, r) ← unwrapM (toffoliF k cr r)
          let (crtail, tr) ← splitLast cr
          let tr ← unwrapO tr
          let (crhead, tr) ← unwrapM (toffoliF k crhead tr)
          TempBuilder.returnTemp tr
          let cr ← mergeTwo crhead crtail
          pure (cr, r) : M LocalBuilder (Reg × Reg)) s1 := by
        rw [toffoliF, if_neg (by simp), if_neg (by simp), LawfulReg.splitRel_eq, split_pair, if_neg h0]
        simp only [liftE_ok, pure_bind]
        rw [bind_ok e1']
      by_cases hab : a = b
      · subst hab
        left
        rw [start]
        have : ∃ s', unwrapM (toffoliF k [a, a] [t]) s1 = .error .panic s' := by
          cases k with
          | zero => exact ⟨_, rfl⟩
          | succ k =>
            rw [toffoliF, if_neg (by simp), if_pos (by rfl)]
            exact ⟨_, unwrapM_err (basicToffoli_same a [t] s1)⟩
        obtain ⟨s', hs'⟩ := this
        exact ⟨by simp, _, bind_err hs'⟩
      · have hdd : dd (a :: b :: c :: cs) = a :: b :: dd rem := dd_pair a b hab _
        rw [hdd] at ho o1 ⊢
        obtain ⟨d, ds, hd⟩ : ∃ d ds, dd rem = d :: ds := List.exists_cons_of_ne_nil (dd_ne h0)
        have hnd : ([a, b] ++ dd rem).Nodup := (List.nodup_append.mp (List.nodup_append.mp ho.left).1).1
        have start' : toffoliF (k + 1) (a :: b :: dd rem) (dd r) s = (do
            let (crhead, tr) ← unwrapM (toffoliF k [a, b] [t])
            let cr ← mergeTwo (dd rem) tr
            let (cr, r) ← unwrapM (toffoliF k cr (dd r))
            let (crtail, tr) ← splitLast cr
            let tr ← unwrapO tr
            let (crhead, tr) ← unwrapM (toffoliF k crhead tr)
            TempBuilder.returnTemp tr
            let cr ← mergeTwo crhead crtail
            pure (cr, r) : M LocalBuilder (Reg × Reg)) s1 := by
          have hsp : splitE (a :: b :: dd rem) [0, 1] = .ok (.split [a, b] (dd rem)) :=
            splitE_prefix [a, b] (dd rem) hnd (by simp) (dd_ne h0)
          rw [toffoliF, if_neg (by rw [hd]; simp), if_neg (by rw [hd]; simp), LawfulReg.splitRel_eq, hsp]
          simp only [liftE_ok, pure_bind]
          rw [bind_ok e1']
        rw [start, start']
        have perm1 : (t :: (a :: b :: dd rem ++ dd r ++ L)).Perm ([a, b] ++ [t] ++ (dd rem ++ dd r ++ L)) := by
          simp only [List.cons_append, List.nil_append]
          exact (List.Perm.swap a t _).trans (List.Perm.cons a (List.Perm.swap b t _))
        have nabt : (a :: b :: [t]).Nodup := (List.nodup_append.mp (o1.perm perm1).left).1
        cases k with
        | zero => simp at hk
        | succ k =>
          have two : (toffoliF (k + 1) [a, b] [t] : M LocalBuilder _) = basicToffoli [a, b] [t] := by
            rw [toffoliF, if_neg (by simp), if_pos (by rfl)]
          have e2 := basicToffoli_emits a b [t] (by simp) nabt s1
          rw [← two] at e2
          rw [bind_ok (unwrapM_ok e2), bind_ok (unwrapM_ok e2)]
          simp only
          rw [LawfulReg.mergeTwo_eq _ _ (by simp), LawfulReg.mergeTwo_eq _ _ (by simp), pure_bind, pure_bind]
          set s2 : LocalBuilder := { s1 with pipeline := s1.pipeline ++ basicToffoliSeg a b [t] } with hs2
          have o2 : Own s2 ([a, b] ++ [t] ++ (dd rem ++ dd r ++ L)) := (o1.perm perm1).pipe _
          have perm2 : ([a, b] ++ [t] ++ (dd rem ++ dd r ++ L)).Perm ((dd rem ++ [t]) ++ dd r ++ ([a, b] ++ L)) := by
            have q1 : ([a, b] ++ [t] ++ (dd rem ++ dd r ++ L)).Perm ((dd rem ++ dd r ++ L) ++ ([a, b] ++ [t])) :=
              List.perm_append_comm
            refine q1.trans ?_
            simp only [List.append_assoc]
            apply List.Perm.append_left
            have q2 : (dd r ++ (L ++ ([a, b] ++ [t]))).Perm ((dd r ++ (L ++ [a, b])) ++ [t]) := by
              simp
            refine q2.trans (List.perm_append_comm.trans ?_)
            apply List.Perm.append_left
            apply List.Perm.append_left
            exact List.perm_append_comm
          have htr : ∀ q ∈ rem, q ∉ [t] := by
            intro q hq hqt
            rw [List.mem_singleton] at hqt
            subst hqt
            have := (List.nodup_cons.mp o1.left).1
            exact this (by simp [mem_dd, hq])
          have hdt : dd (rem ++ [t]) = dd rem ++ [t] := by rw [dd_append htr, dd_single]
          have o2' : Own s2 (dd (rem ++ [t]) ++ dd r ++ ([a, b] ++ L)) := by rw [hdt]; exact o2.perm perm2
          have hlen : (rem ++ [t]).length < k + 1 := by
            have := List.length_filter_le (fun o => !([a, b] : List ℕ).contains o) (c :: cs)
            rw [← hrem] at this
            simp only [List.length_append, List.length_cons, List.length_nil] at hk this ⊢
            omega
          rcases ih (rem ++ [t]) r ([a, b] ++ L) s2 hlen (by simp) hr o2' with ⟨hn, s', h⟩ | h
          · left
            refine ⟨fun hnd => hn ?_, _, bind_err (unwrapM_err h)⟩
            rw [List.nodup_append]
            refine ⟨?_, by simp, fun x hx y hy hxy => htr x hx (hxy ▸ hy)⟩
            rw [hrem]
            exact (List.nodup_cons.mp (List.nodup_cons.mp hnd).2).2.filter _
          · right
            rw [hdt] at h
            have hu : unwrapM (toffoliF (k + 1) (rem ++ [t]) r) s2 = unwrapM (toffoliF (k + 1) (dd rem ++ [t]) (dd r)) s2 := by
              unfold unwrapM; rw [h]
            show EStateM.bind _ _ _ = EStateM.bind _ _ _
            unfold EStateM.bind
            rw [hu]

/-- a list without repetitions is not longer -/
theorem dd_length_le (r : Reg) : (dd r).length ≤ r.length := by
  induction hn : r.length using Nat.strong_induction_on generalizing r with
  | _ n ih =>
    cases r with
    | nil => rw [dd_nil]; simp
    | cons q r =>
      subst hn
      have h1 := List.length_filter_le (fun b => !b == q) r
      rw [dd_cons]
      simp only [List.length_cons] at ih ⊢
      have := ih _ (by omega) (r.filter fun b => !b == q) rfl
      omega

theorem toffoli_dd (cr r L : List ℕ) (s : LocalBuilder) (hc : cr ≠ []) (hr : r ≠ []) (ho : Own s (dd cr ++ dd r ++ L)) :
    (¬ cr.Nodup ∧ ∃ s', toffoli cr r s = .error .panic s') ∨ toffoli cr r s = toffoli (dd cr) (dd r) s := by
  unfold toffoli
  rw [← toffoliF_fuel cr.length (dd cr).length (dd cr) (dd r) L s (dd_length_le cr) (le_refl _) (dd_ne hc) (dd_ne hr) ho]
  exact toffoliF_dd _ cr r L s (by omega) hc hr ho

end Verif
