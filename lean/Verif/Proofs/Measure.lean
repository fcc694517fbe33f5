import Verif.Spec.Measure
import Verif.Proofs.Ops2
import Verif.Proofs.Entwine

namespace Verif
open Finset

theorem add_eq_or' (a b : ℕ) (h : ∀ i, ¬ (a.testBit i = true ∧ b.testBit i = true)) : a + b = a ||| b := by
  induction a using Nat.strong_induction_on generalizing b with
  | _ a ih =>
    by_cases ha : a = 0
    · subst ha; simp
    · have h0 := h 0
      simp only [Nat.testBit_zero, decide_eq_true_eq] at h0
      have ih' := ih (a / 2) (by omega) (b / 2) (by
        intro i
        have := h (i + 1)
        rwa [Nat.testBit_succ, Nat.testBit_succ] at this)
      have e1 : (a ||| b) / 2 = a / 2 ||| b / 2 := Nat.or_div_two
      have e2 : (a ||| b) % 2 = if a % 2 = 1 ∨ b % 2 = 1 then 1 else 0 := by
        have := Nat.testBit_or a b 0
        simp only [Nat.testBit_zero] at this
        have h3 := Nat.mod_two_eq_zero_or_one (a ||| b)
        rcases h3 with h3 | h3 <;> rcases Nat.mod_two_eq_zero_or_one a with h1 | h1 <;>
          rcases Nat.mod_two_eq_zero_or_one b with h2 | h2 <;>
          rw [h1, h2, h3] at this ⊢ <;> first | rfl | (exact absurd this (by decide))
      have e3 := Nat.div_add_mod (a ||| b) 2
      rw [e1, ← ih', e2] at e3
      split at e3 <;> omega

theorem testBit_toNat_shift (v : Bool) (p i : ℕ) : (v.toNat <<< p).testBit i = (decide (p = i) && v) := by
  cases v
  · simp
  · simp [Nat.one_shiftLeft, Nat.testBit_two_pow]

theorem setBit_eq_add (a p : ℕ) (v : Bool) (h : a.testBit p = false) : setBit a p v = a + v.toNat <<< p := by
  rw [add_eq_or']
  · apply Nat.eq_of_testBit_eq
    intro i
    rw [testBit_setBit, Nat.testBit_or, testBit_toNat_shift]
    by_cases e : i = p
    · subst e
      simp [h]
    · rw [if_neg e]
      simp [Ne.symm e]
  · intro i ⟨h1, h2⟩
    rw [testBit_toNat_shift] at h2
    simp at h2
    rw [← h2.1, h] at h1
    exact absurd h1 (by simp)

theorem foldSet_eq_sum (ps : List (ℕ × Bool)) (h : (ps.map Prod.fst).Nodup) :
    foldSet ps 0 = (ps.map fun p => p.2.toNat <<< p.1).sum := by
  induction ps using List.reverseRecOn with
  | nil => rfl
  | append_singleton ps p ih =>
    rw [List.map_append, List.nodup_append] at h
    have hp : p.1 ∉ ps.map Prod.fst := fun hm => h.2.2 _ hm p.1 (by simp) rfl
    have : foldSet (ps ++ [p]) 0 = setBit (foldSet ps 0) p.1 p.2 := by simp [foldSet]
    rw [this, setBit_eq_add _ _ _ (by rw [foldSet_not_mem ps 0 _ hp]; simp), ih h.1]
    simp

theorem foldSet_eq_or (ps : List (ℕ × Bool)) (h : (ps.map Prod.fst).Nodup) :
    foldSet ps 0 = ps.foldl (fun acc p => acc ||| (p.2.toNat <<< p.1)) 0 := by
  induction ps using List.reverseRecOn with
  | nil => rfl
  | append_singleton ps p ih =>
    rw [List.map_append, List.nodup_append] at h
    have hp : p.1 ∉ ps.map Prod.fst := fun hm => h.2.2 _ hm p.1 (by simp) rfl
    have e : foldSet (ps ++ [p]) 0 = setBit (foldSet ps 0) p.1 p.2 := by simp [foldSet]
    have hb : (foldSet ps 0).testBit p.1 = false := by rw [foldSet_not_mem ps 0 _ hp]; simp
    rw [e, setBit_eq_add _ _ _ hb, add_eq_or', ih h.1]
    · simp
    · intro i ⟨h1, h2⟩
      rw [testBit_toNat_shift] at h2
      simp at h2
      rw [← h2.1, hb] at h1
      exact absurd h1 (by simp)

/-- bits scattered to qubit positions, as pairs -/
def scatterPairs (n bits : ℕ) (indices : List ℕ) : List (ℕ × Bool) :=
  indices.zipIdx.map fun p => (n - 1 - p.1, bits.testBit p.2)

theorem scatterPairs_nodup (n bits : ℕ) (indices : List ℕ) (hn : indices.Nodup) (h : ∀ i ∈ indices, i < n) :
    ((scatterPairs n bits indices).map Prod.fst).Nodup := by
  have : (scatterPairs n bits indices).map Prod.fst = indices.map (fun q => n - 1 - q) := by
    rw [scatterPairs, List.map_map]
    apply List.ext_getElem
    · simp
    · intro i h1 h2; simp
  rw [this]
  apply List.Nodup.map_on _ hn
  intro a ha b hb hab
  have := h a ha
  have := h b hb
  omega

theorem shift_and_one (m i : ℕ) : (m >>> i) &&& 1 = (m.testBit i).toNat := by
  rw [Nat.and_one_is_mod, Nat.testBit, Nat.and_comm, Nat.and_one_is_mod]
  rcases Nat.mod_two_eq_zero_or_one (m >>> i) with h | h <;> simp [h]

theorem scatterBits_eq (n bits : ℕ) (indices : List ℕ) (hn : indices.Nodup) (h : ∀ i ∈ indices, i < n) :
    scatterBits n bits indices = some (foldSet (scatterPairs n bits indices) 0) := by
  unfold scatterBits
  rw [foldlM_some _ _ (fun acc p => acc ||| ((bits.testBit p.2).toNat <<< (n - 1 - p.1)))]
  · congr 1
    rw [foldSet_eq_or _ (scatterPairs_nodup n bits indices hn h), scatterPairs, List.foldl_map]
  · intro b a ha
    have : a.1 < n := h a.1 (by
      rw [List.mem_zipIdx_iff_getElem?] at ha
      obtain ⟨h1, h2⟩ := List.getElem?_eq_some_iff.mp ha
      rw [← h2]; exact List.getElem_mem _)
    simp only [bitPos, this, if_true, shift_and_one, Option.bind_eq_bind, Option.bind_some]

theorem scatter_mem (n bits base : ℕ) (indices : List ℕ) (hn : indices.Nodup) (h : ∀ i ∈ indices, i < n) (i : ℕ)
    (hi : i < indices.length) :
    (foldSet (scatterPairs n bits indices) base).testBit (n - 1 - indices[i]) = bits.testBit i := by
  apply foldSet_mem _ _ _ _ (scatterPairs_nodup n bits indices hn h)
  rw [scatterPairs, List.mem_map]
  exact ⟨(indices[i], i), by rw [List.mem_zipIdx_iff_getElem?]; simp [hi], rfl⟩

theorem scatter_not_mem (n bits base : ℕ) (indices : List ℕ) (p : ℕ) (h : ∀ q ∈ indices, n - 1 - q ≠ p) :
    (foldSet (scatterPairs n bits indices) base).testBit p = base.testBit p := by
  apply foldSet_not_mem
  rw [scatterPairs, List.map_map, List.mem_map]
  rintro ⟨a, ha, he⟩
  rw [List.mem_zipIdx_iff_getElem?] at ha
  obtain ⟨h1, h2⟩ := List.getElem?_eq_some_iff.mp ha
  exact h a.1 (by rw [← h2]; exact List.getElem_mem _) he

theorem scatter_eq_s2f (n bits base : ℕ) (indices : List ℕ) (hn : indices.Nodup) (h : ∀ i ∈ indices, i < n) :
    foldSet (scatterPairs n bits indices) base = s2f n indices.reverse bits base := by
  apply Nat.eq_of_testBit_eq
  intro p
  by_cases hp : ∃ q ∈ indices, n - 1 - q = p
  · obtain ⟨q, hq, rfl⟩ := hp
    obtain ⟨i, hi, rfl⟩ := List.mem_iff_getElem.mp hq
    rw [scatter_mem n bits base indices hn h i hi]
    have := testBit_s2f_mem n indices.reverse bits base (List.nodup_reverse.mpr hn)
      (fun j hj => h j (List.mem_reverse.mp hj)) (indices.length - 1 - i) (by simp; omega)
    rw [List.getElem_reverse] at this
    simp only [List.length_reverse] at this
    have e : indices.length - 1 - (indices.length - 1 - i) = i := by omega
    simp only [e] at this
    exact this.symm
  · push Not at hp
    rw [scatter_not_mem n bits base indices p hp, testBit_s2f_not_mem]
    intro q hq
    exact hp q (List.mem_reverse.mp hq)

theorem scatter_lt (n bits : ℕ) (indices : List ℕ) (hn : indices.Nodup) (h : ∀ i ∈ indices, i < n) :
    foldSet (scatterPairs n bits indices) 0 < 2 ^ n := by
  rw [scatter_eq_s2f n bits 0 indices hn h]
  exact s2f_lt n _ bits 0 (Nat.two_pow_pos n) (fun j hj => h j (List.mem_reverse.mp hj))

/-- the qubits not measured -/
def restIdx (n : ℕ) (indices : List ℕ) : List ℕ := (List.range n).filter (fun i => !indices.contains i)

theorem mem_restIdx (n : ℕ) (indices : List ℕ) (q : ℕ) : q ∈ restIdx n indices ↔ q < n ∧ q ∉ indices := by
  simp [restIdx]

theorem restIdx_nodup (n : ℕ) (indices : List ℕ) : (restIdx n indices).Nodup := List.nodup_range.filter _

theorem sum_filterMap_ite {α : Type} (l : List α) (f : α → Option ℝ) (g : α → ℝ)
    (h : ∀ a ∈ l, (f a).getD 0 = g a) : ((l.map f).filterMap id).sum = (l.map g).sum := by
  induction l with
  | nil => rfl
  | cons a l ih =>
    have h1 := h a (by simp)
    have h2 := ih (fun a ha => h a (by simp [ha]))
    rw [List.map_cons, List.map_cons, List.sum_cons, ← h2, ← h1]
    cases f a with
    | none => simp
    | some x => simp

theorem list_range_sum (N : ℕ) (g : ℕ → ℝ) : ((List.range N).map g).sum = ∑ i ∈ range N, g i := by
  induction N with
  | zero => simp
  | succ N ih => rw [List.range_succ, List.map_append, List.sum_append, ih, sum_range_succ]; simp

theorem measureProbFn_eq (n m : ℕ) (indices : List ℕ) (hn : indices.Nodup) (hidx : ∀ i ∈ indices, i < n)
    (off : Option ℕ) (f : ℕ → ℂ) :
    measureProbFn n m indices off f = some (bornProb n indices m
      (fun x => if x < off.getD 0 then 0 else f (x - off.getD 0))) := by
  classical
  have hR : ∀ i ∈ restIdx n indices, i < n := fun i hi => ((mem_restIdx n indices i).mp hi).1
  have hRn := restIdx_nodup n indices
  set T := foldSet (scatterPairs n m indices) 0 with hT
  set amp : ℕ → ℂ := fun x => if x < off.getD 0 then 0 else f (x - off.getD 0) with hamp
  have hTlt : T < 2 ^ n := scatter_lt n m indices hn hidx
  have hidxOf : ∀ bits, foldSet (scatterPairs n bits (restIdx n indices)) 0 + T =
      s2f n (restIdx n indices).reverse bits T := by
    intro bits
    rw [add_eq_or', ← scatter_eq_s2f n bits T _ hRn hR]
    · apply Nat.eq_of_testBit_eq
      intro p
      rw [Nat.testBit_or]
      by_cases hp : ∃ q ∈ restIdx n indices, n - 1 - q = p
      · obtain ⟨q, hq, rfl⟩ := hp
        obtain ⟨i, hi, rfl⟩ := List.mem_iff_getElem.mp hq
        rw [scatter_mem n bits 0 _ hRn hR i hi, scatter_mem n bits T _ hRn hR i hi]
        have : T.testBit (n - 1 - (restIdx n indices)[i]) = false := by
          rw [hT, scatter_not_mem, Nat.zero_testBit]
          intro q' hq' he
          have h1 := hidx q' hq'
          have h2 := (mem_restIdx n indices _).mp hq
          have : q' = (restIdx n indices)[i] := by omega
          exact h2.2 (this ▸ hq')
        simp [this]
      · push Not at hp
        rw [scatter_not_mem n bits 0 _ p hp, scatter_not_mem n bits T _ p hp]
        simp
    · intro p ⟨h1, h2⟩
      by_cases hp : ∃ q ∈ restIdx n indices, n - 1 - q = p
      · obtain ⟨q, hq, rfl⟩ := hp
        rw [hT, scatter_not_mem, Nat.zero_testBit] at h2
        · exact absurd h2 (by simp)
        · intro q' hq' he
          have h1 := hidx q' hq'
          have h2 := (mem_restIdx n indices _).mp hq
          have : q' = q := by omega
          exact h2.2 (this ▸ hq')
      · push Not at hp
        rw [scatter_not_mem n bits 0 _ p hp] at h1
        simp at h1
  unfold measureProbFn
  simp only [scatterBits_eq n m indices hn hidx, Option.bind_eq_bind, Option.bind_some]
  change (Option.bind (List.mapM _ (List.range (1 <<< (restIdx n indices).length))) _) = _
  rw [mapM_some _ _ (fun bits => if foldSet (scatterPairs n bits (restIdx n indices)) 0 + T < off.getD 0 then none
    else if f (foldSet (scatterPairs n bits (restIdx n indices)) 0 + T - off.getD 0) = 0 then none
      else some (Complex.normSq (f (foldSet (scatterPairs n bits (restIdx n indices)) 0 + T - off.getD 0))))]
  · simp only [Option.bind_some]
    congr 1
    rw [sum_filterMap_ite _ _ (fun bits => Complex.normSq (amp (s2f n (restIdx n indices).reverse bits T))),
      list_range_sum, Nat.one_shiftLeft]
    · have := embed_sum n (restIdx n indices).reverse (List.nodup_reverse.mpr hRn)
        (fun j hj => hR j (List.mem_reverse.mp hj)) (fun _ _ => (1 : ℝ)) (fun x => Complex.normSq (amp x)) T hTlt
      simp only [one_mul, List.length_reverse] at this
      rw [this, bornProb, sum_filter]
      apply sum_congr rfl
      intro c hc
      have hiff : AgreeOff n (restIdx n indices).reverse T c ↔ Spells n indices m c := by
        constructor
        · intro h i hi
          have hlt := hidx _ (List.getElem_mem hi)
          have := h indices[i] hlt (by
            rw [List.mem_reverse, mem_restIdx]; intro h'; exact h'.2 (List.getElem_mem hi))
          rw [← this, hT, scatter_mem n m 0 indices hn hidx i hi]
        · intro h q hq hm
          rw [List.mem_reverse, mem_restIdx] at hm
          have hqi : q ∈ indices := by
            by_contra hc'; exact hm ⟨hq, hc'⟩
          obtain ⟨i, hi, rfl⟩ := List.mem_iff_getElem.mp hqi
          rw [h i hi, hT, scatter_mem n m 0 indices hn hidx i hi]
      unfold embed
      by_cases hs : Spells n indices m c
      · rw [if_pos (hiff.mpr hs), if_pos hs, one_mul]
      · rw [if_neg (fun h => hs (hiff.mp h)), if_neg hs, zero_mul]
    · intro bits _
      rw [hidxOf]
      simp only [hamp]
      split
      · simp
      · split
        · rename_i h; simp [h]
        · simp
  · intro bits _
    rw [scatterBits_eq n bits (List.filter _ _) hRn hR]
    simp only [Option.bind_some]
    change (if foldSet (scatterPairs n bits (restIdx n indices)) 0 + T < off.getD 0 then _ else
      if f (foldSet (scatterPairs n bits (restIdx n indices)) 0 + T - off.getD 0) = 0 then _ else _) = _
    by_cases c1 : foldSet (scatterPairs n bits (restIdx n indices)) 0 + T < off.getD 0
    · rw [if_pos c1, if_pos c1]
    · rw [if_neg c1, if_neg c1]
      by_cases c2 : f (foldSet (scatterPairs n bits (restIdx n indices)) 0 + T - off.getD 0) = 0
      · rw [if_pos c2, if_pos c2]
      · rw [if_neg c2, if_neg c2]
        rfl

theorem measureProb_eq (n m : ℕ) (indices : List ℕ) (hn : indices.Nodup) (hidx : ∀ i ∈ indices, i < n)
    (input : List ℂ) (off : Option ℕ) :
    measureProb n m indices input off = some (bornProb n indices m (ampAt input (off.getD 0))) := by
  unfold measureProb
  rw [measureProbFn_eq n m indices hn hidx]
  congr 2
  funext x
  unfold ampAt
  split
  · rfl
  · split
    · rename_i h; rw [List.getElem?_eq_none h]; rfl
    · rename_i h; rw [List.getElem?_eq_getElem (by omega)]; rfl

end Verif
