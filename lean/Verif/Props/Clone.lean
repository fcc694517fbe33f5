import Verif.Proofs.Clone
import Verif.Props.Defer

/-!
# Property C132: no program clones

No structured program (C105) copies the state of a register to another one, with work registers or without.
-/

namespace Verif.Props
open Complex

theorem clone_blocks (n : ℕ) (sizes : List ℕ) : blocks 0 (n :: n :: sizes) = List.range n :: List.range' n n :: blocks (n + n) sizes := by
  simp [blocks, List.range_eq_range']

theorem clone_takes {n : ℕ} (hn : 0 < n) {sizes : List ℕ} (hpos : ∀ k ∈ sizes, 0 < k) {c : Prog} (hc : c.Takes false (blocks 0 (n :: n :: sizes))) (g : Option Named) :
    ∀ a ∈ cloneActs c g, a.Takes (blocks 0 (n :: n :: sizes)) := by
  have hl : 1 < (blocks 0 (n :: n :: sizes)).length := by simp [blocks]
  have hr : blocks 0 (n :: n :: sizes) ≠ [] ∧ ∀ r ∈ blocks 0 (n :: n :: sizes), r ≠ [] := by
    refine ⟨by simp [blocks], ?_⟩
    rw [blocks_eq]
    exact ranges_ne _ (by simpa [hn] using hpos) 0
  intro a ha
  simp only [cloneActs, List.mem_cons, List.not_mem_nil, or_false] at ha
  rcases ha with rfl | rfl | rfl | rfl | rfl | rfl
  · exact clonePrep_takes (by omega) hr g
  · exact hc
  · exact clonePrep_takes (by omega) hr g
  · exact clonePrep_takes hl hr g
  · exact lt_trans Nat.zero_lt_one hl
  · exact hl

theorem clone_wave {n : ℕ} (hn : 0 < n) (sizes : List ℕ) (c : Prog) (g : Option Named) (ψ : Wave) :
    actsW (blocks 0 (n :: n :: sizes)) (cloneActs c g) [0, 0] ψ =
      projW (List.range' n n) 0 (projW (List.range n) 0 (optW n g (optW 0 g (lift (c.wave false (blocks 0 (n :: n :: sizes))) (optW 0 g ψ))))) := by
  have e0 : ((blocks 0 (n :: n :: sizes)).getD 0 []) = List.range n := by rw [clone_blocks]; rfl
  have e1 : ((blocks 0 (n :: n :: sizes)).getD 1 []) = List.range' n n := by rw [clone_blocks]; rfl
  have f0 : (List.range n).getD 0 0 = 0 := by rw [List.getD_eq_getElem _ _ (by simpa using hn)]; simp
  have f1 : (List.range' n n).getD 0 0 = n := by rw [List.getD_eq_getElem _ _ (by simpa using hn)]; simp
  rw [cloneActs, acts_run, acts_run, acts_run, acts_run, acts_measure, acts_measure, clonePrep_lift, clonePrep_lift, e0, e1, f0, f1]
  rfl

theorem clone_norm {n : ℕ} (hn : 0 < n) {sizes : List ℕ} (hpos : ∀ k ∈ sizes, 0 < k) {c : Prog} (hc : c.Takes false (blocks 0 (n :: n :: sizes))) (g : Option Named) (x : Asg) :
    normW (optW n g (optW 0 g (lift (c.wave false (blocks 0 (n :: n :: sizes))) (optW 0 g (ket x))))) = 1 := by
  have hT := clone_takes hn hpos hc g
  have hp : ∀ p ∈ [clonePrep 0 g, c, clonePrep 0 g, clonePrep 1 g], p.Takes false (blocks 0 (n :: n :: sizes)) := fun p hp => hT (.run p) (by
    simp only [List.mem_cons, List.not_mem_nil, or_false] at hp
    rcases hp with rfl | rfl | rfl | rfl <;> simp [cloneActs])
  have h := runs_norm _ (blocks_apart _) _ hp [] (ket x)
  have e0 : ((blocks 0 (n :: n :: sizes)).getD 0 []) = List.range n := by rw [clone_blocks]; rfl
  have e1 : ((blocks 0 (n :: n :: sizes)).getD 1 []) = List.range' n n := by rw [clone_blocks]; rfl
  have f0 : (List.range n).getD 0 0 = 0 := by rw [List.getD_eq_getElem _ _ (by simpa using hn)]; simp
  have f1 : (List.range' n n).getD 0 0 = n := by rw [List.getD_eq_getElem _ _ (by simpa using hn)]; simp
  rw [List.map_cons, List.map_cons, List.map_cons, List.map_cons, List.map_nil, acts_run, acts_run, acts_run, acts_run, clonePrep_lift, clonePrep_lift, e0, e1, f0, f1, normW_ket] at h
  exact h

/-- C132: whatever the sizes of the registers, and whatever structured program `c` is to clone the first register into the second, with work registers: it fails the test (`cloneActs`) for
one of three states of one qubit, 0, 1 (X) or H. The test runs, and the outcome 0 and 0, which a clone gives, has probability less than 1. -/
theorem C132_no_cloning {n : ℕ} (hn : 0 < n) {sizes : List ℕ} (hpos : ∀ k ∈ sizes, 0 < k) {c : Prog} (hc : c.Takes false (blocks 0 (n :: n :: sizes))) :
    ∃ g, (g = none ∨ g = some Named.x ∨ g = some Named.h) ∧ ∃ S,
      mainProg (n :: n :: sizes) (cloneActs c g) LocalBuilder.default = .ok (blocks 0 (n :: n :: sizes), [0, 1]) S ∧ outcomeProb S [] [0, 0] < 1 := by
  by_contra hno
  have hpos' : ∀ k ∈ n :: n :: sizes, 0 < k := by simpa [hn] using hpos
  have hi : initAsg [] = fun _ => false := by funext q; simp [initAsg]
  have key : ∀ g, (g = none ∨ g = some Named.x ∨ g = some Named.h) →
      On {y | y 0 = false ∧ y n = false} (optW n g (optW 0 g (lift (c.wave false (blocks 0 (n :: n :: sizes))) (optW 0 g (ket fun _ => false))))) := by
    intro g hg
    obtain ⟨S, h⟩ := C106_runs (n :: n :: sizes) hpos' _ (clone_takes hn hpos hc g)
    have h1 : 1 ≤ outcomeProb S [] [0, 0] := by
      by_contra hl
      exact hno ⟨g, hg, S, h, not_le.mp hl⟩
    rw [C106_born hpos' (clone_takes hn hpos hc g) h [] (by simp) [0, 0] rfl, ENNReal.one_le_ofReal, hi, clone_wave hn] at h1
    refine (on_two (by rw [clone_norm hn hpos hc g]; exact h1)).mono fun y hy => ?_
    have hy' : valQ (List.range n) y = 0 ∧ valQ (List.range' n n) y = 0 := hy
    exact ⟨bit_of_zero hy'.1 (by simpa using hn), bit_of_zero hy'.2 (by simp; omega)⟩
  have hz := no_clone (A := lift (c.wave false (blocks 0 (n :: n :: sizes)))) (a := 0) (b := n) (by omega) (x := fun _ => false) rfl
    (key none (.inl rfl)) (key (some .x) (.inr (.inl rfl))) (key (some .h) (.inr (.inr rfl)))
  have h1 := clone_norm hn hpos hc (some .h) fun _ => false
  simp only [optW] at h1
  rw [hz, normW_zero] at h1
  exact zero_ne_one h1

theorem x_ket_at (q : ℕ) (x : Asg) : gateW [q] (Named.mat .x) (ket x) = ket (setQ q (!x q) x) := by
  rw [gate1_ket]
  cases h : x q <;> simp [Named.mat, mat2]

/-- C132: what can be cloned are basis states: `copy` passes the test for 0 and for 1, and so fails it for H. -/
theorem C132_copy {n : ℕ} (hn : 0 < n) (g : Option Named) (hg : g = none ∨ g = some Named.x ∨ g = some Named.h) :
    ∃ S, mainProg [n, n] (cloneActs (.call .copy) g) LocalBuilder.default = .ok ([List.range n, List.range' n n], [0, 1]) S ∧
      (outcomeProb S [] [0, 0] = 1 ↔ g ≠ some Named.h) := by
  have hpos : ∀ k ∈ [n, n], 0 < k := by simp [hn]
  have hi : initAsg [] = fun _ => false := by funext q; simp [initAsg]
  have hc : (Prog.call .copy).Takes false (blocks 0 (n :: n :: [])) := by
    rw [clone_blocks]
    simp only [Prog.Takes, Method.Takes, blocks]
    exact ⟨by simp; omega, by simp⟩
  have hw : ∀ x, lift ((Prog.call .copy).wave false (blocks 0 (n :: n :: []))) (ket x) = ket (xorMap (List.range n) (List.range' n n) x) := fun x => by
    rw [lift_ket, clone_blocks]
    simp only [Prog.wave, Method.wave, blocks]
  have hz : normW (projW (List.range' n n) 0 (projW (List.range n) 0 (ket fun _ => false))) = 1 := by
    have h0 : ∀ r, valQ r (fun _ => false) = 0 := fun r => by induction r with
      | nil => rfl
      | cons q r ih => simp [valQ, ih]
    rw [projW_on (On.ket (h0 _)), projW_on (On.ket (h0 _)), normW_ket]
  have one : ∀ g, g = none ∨ g = some Named.x → ∀ S, mainProg [n, n] (cloneActs (.call .copy) g) LocalBuilder.default = .ok (blocks 0 [n, n], [0, 1]) S →
      outcomeProb S [] [0, 0] = 1 := by
    intro g hg S h
    rw [C106_born hpos (clone_takes hn (by simp) hc g) h [] (by simp) [0, 0] rfl, hi, clone_wave hn]
    have e : optW n g (optW 0 g (lift ((Prog.call .copy).wave false (blocks 0 (n :: n :: []))) (optW 0 g (ket fun _ => false)))) = ket fun _ => false := by
      rcases hg with rfl | rfl
      · simp only [optW, LinearMap.id_apply, hw]
        congr 1
        funext q
        simp [xorMap]
      · simp only [optW, x_ket_at, hw]
        congr 1
        funext q
        have hx : xorMap (List.range n) (List.range' n n) (setQ 0 (!false) fun _ => false) = setQ n true (setQ 0 true fun _ => false) := by
          funext q
          unfold xorMap
          by_cases hq : q ∈ List.range' n n
          · rw [if_pos hq]
            have hb := List.mem_range'_1.mp hq
            obtain ⟨k, hk, rfl⟩ : ∃ k < n, q = n + k := ⟨q - n, by omega, by omega⟩
            have hix : (List.range' n n).idxOf (n + k) = k := by
              have e : (List.range' n n)[k]'(by simpa using hk) = n + k := by simp
              rw [← e]
              exact (List.nodup_range' (s := n) (n := n)).idxOf_getElem k (by simpa using hk)
            rw [hix, setQ_ne (by omega : n + k ≠ 0), List.getD_eq_getElem _ _ (by simpa using hk), List.getElem_range]
            by_cases h0 : k = 0
            · subst h0
              simp
            · rw [setQ_ne h0, setQ_ne (by omega : n + k ≠ n), setQ_ne (by omega : n + k ≠ 0)]
              rfl
          · rw [if_neg hq, Bool.not_false, setQ_ne (p := q) (q := n) (fun h => hq (by rw [h]; simp; omega))]
        rw [hx]
        by_cases h1 : q = n
        · subst h1
          rw [setQ_eq, setQ_ne (by omega), setQ_eq]
          rfl
        · rw [setQ_ne h1]
          by_cases h2 : q = 0
          · subst h2
            rw [setQ_eq, setQ_ne (by omega), setQ_eq]
            rfl
          · rw [setQ_ne h2, setQ_ne h1, setQ_ne h2]
    rw [e, hz, ENNReal.ofReal_one]
  obtain ⟨S, h⟩ := C106_runs [n, n] hpos _ (clone_takes hn (by simp) hc g)
  have hb : blocks 0 [n, n] = [List.range n, List.range' n n] := by simp [blocks, List.range_eq_range']
  refine ⟨S, by rw [h, hb]; rfl, fun h1 hgh => ?_, fun hgh => one g (by tauto) S h⟩
  subst hgh
  obtain ⟨g, hg, S', h', hl⟩ := C132_no_cloning hn (sizes := []) (by simp) hc
  rcases hg with rfl | rfl | rfl
  · rw [one none (.inl rfl) S' h'] at hl; exact lt_irrefl _ hl
  · rw [one _ (.inr rfl) S' h'] at hl; exact lt_irrefl _ hl
  · rw [h] at h'
    cases h'
    rw [h1] at hl
    exact lt_irrefl _ hl

/-- example: a program with a work register of two qubits, which entangles the copy with it: the hypotheses hold -/
example : (Prog.seq (.prog (.plain (.call .copy) [[(0, none)], [(1, none)]] .nil)) (.prog (.plain (.call .cnot) [[(1, some [0])], [(2, none)]] .nil))).Takes false (blocks 0 [3, 3, 2]) := by
  have hb : blocks 0 [3, 3, 2] = [[0, 1, 2], [3, 4, 5], [6, 7]] := by decide
  rw [hb]
  simp only [Prog.Takes, Lines.Takes]
  refine ⟨⟨by simp, ⟨by decide, by decide, by decide, by unfold HasPos; decide⟩, ?_, trivial⟩, ⟨by simp, ⟨by decide, by decide, by decide, by unfold HasPos; decide⟩, ?_, trivial⟩⟩
  · exact ⟨by decide, by decide⟩
  · exact ⟨by decide, by decide⟩

end Verif.Props
