import Verif.Proofs.Uses6
import Verif.Proofs.Loose

/-! # Counting elements and qubits: `qfft` -/

namespace Verif
open Classical RegOps CircuitBuilder TempBuilder Rooted

/-! ## rotations inside conditions -/

theorem Uses.onParent {β α : Type} [Rooted β] {g : M β α} {s : Conditioned β} {a : α} {L : List ℕ} {P : Profile} {k lo hi : ℕ}
    (h : Uses g s.parent a L P k lo hi) : Uses (Conditioned.onParent g) s a L P k lo hi := by
  obtain ⟨s', h1, h2, h3⟩ := h
  refine ⟨⟨s', s.cr⟩, ?_, ?_, h3⟩
  · unfold Conditioned.onParent
    rw [h1]
  · show (match s.cr, ctl s' with
      | some (c :: cr), some cs => some ((c :: cr) :: cs)
      | _, _ => none) = (match s.cr, ctl s.parent with
      | some (c :: cr), some cs => some ((c :: cr) :: cs)
      | _, _ => none)
    rw [h2]

theorem rot_uses {g : (k : ℕ) → M (NB k) Reg} (hg : ∀ k, g (k + 1) = Conditioned.onParent (g k)) {a : Reg} {p : Pipeline} (h0 : Emits (g 0) a p) :
    ∀ (k : ℕ) (s : NB k) (L : List ℕ), Own (root s) L → Uses (g k) s a L (prof p) 0 0 0
  | 0, s, L, ho => Uses.emits h0 ho
  | k + 1, s, L, ho => by
    rw [hg k]
    exact Uses.onParent (β := NB k) (s := s) (rot_uses hg h0 k (Conditioned.parent (β := NB k) s) L ho)

theorem Takes.rzPiBy (q : ℕ) (m : ℤ) (hm : m ≠ 0) (k : ℕ) (cs : List Reg) :
    Takes cs (Rotations.rzPiBy [q] m : M (NB k) Reg) [q] [q] (one .rz) 0 0 := fun s L _ ho =>
  (rot_uses (g := fun k => (Rotations.rzPiBy [q] m : M (NB k) Reg)) (fun _ => rfl) (rzPiBy_emits [q] m hm) k s _ ho).congr (List.Perm.refl _)
    (by rw [prof_one]; rfl) (le_refl _) (le_refl _)

/-! ## loops -/

namespace Takes

section
variable {β α : Type} [Conditionable β] [Rooted β] [Sim β] {cs : List Reg}

/-- the Hadamard gate -/
theorem h (q : ℕ) : Takes cs (Gate.h [q] : M β Reg) [q] [q] (condK cs.flatten.length .h) (cs.flatten.length - 2) (cs.flatten.length - 2) := by
  refine gate (co := ⟨1, .unitary .H⟩) (applyCO (P := fun c => condK c .h) (lo := fun c => c - 2) (hi := fun c => c - 2) (fun s L ho => ?_)
    fun s cr L hc ho => ?_) Sim.makeH
  · exact (Uses.emits (applyCO_one_emits [q] (by simp) (by simp) (.unitary .H)) ho).congr (List.Perm.refl _)
      (by rw [List.map_singleton, prof_one]; simp [condK]; rfl) (le_refl _) (le_refl _)
  · have hpos := List.length_pos_iff.mpr hc
    have hne : cr.length ≠ 0 := by omega
    obtain ⟨p, h1, h2⟩ := ryPiBy_emits q (m := 4) (by norm_num)
    obtain ⟨p', h3, h4⟩ := ryPiBy_emits q (m := -4) (by norm_num)
    refine (conj_uses (g := fun r => Rotations.ryPiBy r 4) (g' := fun r => Rotations.ryPiBy r (-4)) hc ho h1 h3).congr (List.Perm.refl _) ?_ (by omega) (by omega)
    rw [h2, h4]
    simp only [condK, hne, if_false]
    abel

/-- a loop whose steps differ -/
theorem loop {ι σ : Type} {f : σ → ι → M β σ} {st : σ} {Q : List ℕ} {P : ι → Profile} {t : ℕ} :
    (l : List ι) → l ≠ [] ∨ t = 0 → (∀ i ∈ l, Takes cs (f st i) st Q (P i) t t) → Takes cs (l.foldlM f st) st Q ((l.map P).sum) t t
  | [], h0, _ => by
    obtain h | rfl := h0
    · exact absurd rfl h
    · exact pure st Q
  | [i], _, h => by
    refine ((h i (by simp)).congr (by simp) (le_refl _) (le_refl _)).cast ?_ rfl rfl
    simp
  | i :: j :: l, _, h => by
    refine (((h i (by simp)).bind (f := fun st => (j :: l).foldlM f st) (loop (j :: l) (.inl (by simp)) fun i hi => h i (by simp at hi ⊢; tauto))).congr
      (by simp) (by omega) (by omega)).cast ?_ rfl rfl
    rw [List.foldlM_cons]

end

/-! ## `qfft` -/

theorem qfftRow (i q j : ℕ) (sl : List (Option Reg)) (p : ℕ) (hj : sl[j]? = some (some [p])) (k : ℕ) (cs : List Reg) :
    Takes cs (Verif.qfftRow i ([q], sl) j : M (NB k) _) ([q], sl) [q] (one .rz) 0 0 := by
  unfold Verif.qfftRow
  rw [hj]
  simp only [Option.join_some, unwrapO_some, pure_bind]
  rw [(Props.C37_rotations_partial (β := NB k) [p] [q] 0 0 _).2.2.2.2.2.2.1, bind_assoc]
  simp only [pure_bind]
  rw [set_same sl j _ hj]
  exact (Takes.rzPiBy q _ (by positivity) k cs).map (f := fun a => (a, sl)) rfl

theorem qfftCol (r : Reg) (i : ℕ) (hi : i < r.length) (k : ℕ) (cs : List Reg) :
    Takes cs (Verif.qfftCol (r.map fun q => some [q]) i : M (NB k) _) (r.map fun q => some [q]) [r[i]]
      ((r.length - (i + 1)) • one .rz + condK cs.flatten.length .h) (cs.flatten.length - 2) (cs.flatten.length - 2) := by
  have hget : ∀ j (hj : j < r.length), (r.map fun q => (some [q] : Option Reg))[j]? = some (some [r[j]]) := fun j hj => by
    simp [hj]
  unfold Verif.qfftCol
  rw [hget i hi]
  simp only [Option.join_some, unwrapO_some, pure_bind, List.length_map]
  have h1 := loop (β := NB k) (cs := cs) (Q := [r[i]]) (t := 0) (f := Verif.qfftRow i) (st := ([r[i]], (r.map fun q => (some [q] : Option Reg)).set i none))
    (P := fun _ => one .rz) (List.range' (i + 1) (r.length - (i + 1))) (.inr rfl) fun j hj => by
      rw [List.mem_range'_1] at hj
      exact qfftRow i r[i] j _ (r[j]'(by omega)) (by rw [List.getElem?_set_ne (by omega), hget j (by omega)]) k cs
  have h2 : Takes cs (Gate.h [r[i]] >>= fun ri => Pure.pure (((r.map fun q => (some [q] : Option Reg)).set i none).set i (some ri)) : M (NB k) _)
      (r.map fun q => some [q]) [r[i]] (condK cs.flatten.length .h) (cs.flatten.length - 2) (cs.flatten.length - 2) :=
    (h r[i]).map (f := fun ri => ((r.map fun q => (some [q] : Option Reg)).set i none).set i (some ri)) (set_back _ i _ _ (hget i hi))
  refine (h1.bind (f := fun p : Reg × List (Option Reg) => Gate.h p.1 >>= fun ri => Pure.pure (p.2.set i (some ri))) h2).congr ?_ (by omega) (by omega)
  rw [List.map_const', List.sum_replicate, List.length_range']

theorem qfftSwap (r : Reg) (hn : r.Nodup) (i : ℕ) (hi : i < r.length / 2) (k : ℕ) (cs : List Reg) :
    Takes cs (Verif.qfftSwap (r.map fun q => some [q]) i : M (NB k) _) (r.map fun q => some [q]) [r[i]'(by omega), r[r.length - 1 - i]'(by omega)]
      (3 • tofP (cs.flatten.length + 1)) (cs.flatten.length - 1) (cs.flatten.length - 1) := by
  have hget : ∀ j (hj : j < r.length), (r.map fun q => (some [q] : Option Reg))[j]? = some (some [r[j]]) := fun j hj => by
    simp [hj]
  have hne : i ≠ r.length - 1 - i := by omega
  unfold Verif.qfftSwap
  rw [hget i (by omega)]
  simp only [Option.join_some, unwrapO_some, pure_bind, List.length_map]
  rw [List.getElem?_set_ne hne, hget (r.length - 1 - i) (by omega)]
  simp only [Option.join_some, unwrapO_some, pure_bind]
  refine (swap1 (β := NB k) (cs := cs) rfl (r[i]'(by omega)) (r[r.length - 1 - i]'(by omega))).map
    (f := fun p : Reg × Reg => (((((r.map fun q => (some [q] : Option Reg)).set i none).set (r.length - 1 - i) none).set i (some p.1)).set
    (r.length - 1 - i) (some p.2))) ?_
  simp only
  rw [List.set_comm _ _ hne.symm, List.set_set, List.set_set]
  rw [set_same (r.map fun q => (some [q] : Option Reg)) i _ (hget i (by omega)),
    set_same _ (r.length - 1 - i) _ (hget (r.length - 1 - i) (by omega))]

theorem rots_sum (n : ℕ) : ((List.range n).map fun i => n - (i + 1)).sum = n * (n - 1) / 2 := by
  rw [← Finset.sum_range_id, ← Finset.sum_range_reflect]
  show (List.map _ (List.range n)).sum = (Multiset.map _ (Multiset.range n)).sum
  rw [Multiset.range, Multiset.map_coe, Multiset.sum_coe]
  congr 1
  exact List.map_congr_left fun i _ => by omega

theorem qfft (r : Reg) (hr : r ≠ []) (k : ℕ) (cs : List Reg) :
    Takes cs (Verif.qfft r : M (NB k) _) r r (Count.qfft r.length cs.flatten.length) (Count.qfftTemps r.length cs.flatten.length)
      (Count.qfftTemps r.length cs.flatten.length) := by
  refine of_nodup fun hn => ?_
  have hpos := List.length_pos_iff.mpr hr
  unfold Verif.qfft
  rw [splitAll_eq r hr hn]
  simp only [pure_bind, List.length_map, List.map_map]
  have e1 := loop (β := NB k) (cs := cs) (Q := r) (f := Verif.qfftCol) (st := r.map fun q => some [q]) (t := cs.flatten.length - 2)
    (P := fun i => (r.length - (i + 1)) • one .rz + condK cs.flatten.length .h) (List.range r.length)
    (.inl (by simp; omega)) fun i hi => by
      rw [List.mem_range] at hi
      exact (qfftCol r i hi k cs).mono (by simp) (by simp)
  have e2 := fun h => loop (β := NB k) (cs := cs) (Q := r) (f := Verif.qfftSwap) (st := r.map fun q => some [q])
    (t := if r.length = 1 then 0 else cs.flatten.length - 1) (P := fun _ => 3 • tofP (cs.flatten.length + 1)) (List.range (r.length / 2)) h fun i hi => by
      rw [List.mem_range] at hi
      rw [if_neg (by omega)]
      refine (qfftSwap r hn i hi k cs).mono ?_ ?_
      · simpa using fun e => absurd ((List.Nodup.getElem_inj_iff hn).mp e) (by omega)
      · simp
  have e3 := e2 (by
    by_cases h1 : r.length = 1
    · exact .inr (if_pos h1)
    · exact .inl (by simp; omega))
  have e4 : (r.map fun q => (some [q] : Option Reg)).mapM id = some (r.map fun q => [q]) := by
    clear e1 e2 e3 hr hn hpos
    induction r with
    | nil => rfl
    | cons q r ih => rw [List.map_cons, List.mapM_cons, ih]; rfl
  have e6 := e3.bind (f := fun rs => do
      let rs ← unwrapO (rs.mapM id)
      match ← mergeRegisters rs with
      | some r => Pure.pure r
      | none => throw .error) (c := r) (P' := 0) (lo' := 0) (hi' := 0) (by
    rw [e4]
    simp only [unwrapO_some, pure_bind]
    rw [mergeSingles r hr]
    exact pure r r)
  refine (e1.bind (f := fun rs => (List.range (rs.length / 2)).foldlM Verif.qfftSwap rs >>= fun rs => do
      let rs ← unwrapO (rs.mapM id)
      match ← mergeRegisters rs with
      | some r => Pure.pure r
      | none => throw .error) (by simp only [List.length_map]; exact e6)).congr ?_ ?_ ?_
  · rw [List.map_const', List.sum_replicate, List.length_range, List.sum_map_add, List.map_const', List.sum_replicate, List.length_range]
    unfold Count.qfft
    rw [← rots_sum, add_zero, mul_smul, smul_comm 3 (r.length / 2), add_comm (List.sum _)]
    congr 2
    generalize List.range r.length = l
    induction l with
    | nil => simp
    | cons i l ih => rw [List.map_cons, List.sum_cons, ih, List.map_cons, List.sum_cons, add_smul]
  · unfold Count.qfftTemps
    split <;> omega
  · unfold Count.qfftTemps
    split <;> omega

end Takes

end Verif
