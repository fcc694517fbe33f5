import Verif.Props.StructInv
import Verif.Props.AddMod

/-!
# Property C108: circuits made by structured programs and applied elsewhere

`make_subcircuit` hands out the circuit made so far, at any depth of conditions. The circuit of a structured program made in a new builder
and applied with `apply_subcircuit` to other registers does what the program does.
-/

namespace Verif.Props
open Rooted

/-- C108: at any depth of conditions `make_subcircuit` returns the whole circuit made so far, with everything made outside the conditions. -/
theorem C108_whole (k : ℕ) (s : NB k) : Recursive.makeSub s = (root s).pipeline := by
  induction k with
  | zero => rfl
  | succ k ih => exact ih (Conditioned.parent (β := NB k) s)

/-- C108: a structured program that has to do with the last qubit of its registers is carried out in a new builder, the circuit taken with
`make_subcircuit`, and applied to the merged registers `rs` of another builder: this does what the program does on `rs`. Inside conditions it does
so if the conditions hold, and nothing otherwise, if the circuit consists of X, Z, S, T and CNOT gates (Y and H are replaced, see C58). -/
theorem C108_elsewhere (p : Prog) (rs : List Reg) (hne : rs ≠ []) (hr : ∀ r ∈ rs, r ≠ [])
    (hp : p.Takes false (ranges 0 (rs.map List.length)))
    (ht : Touches (rs.flatten.length - 1) (p.wave false (ranges 0 (rs.map List.length)))) :
    ∃ rs' b, (do
        let rs ← (rs.map List.length).mapM LocalBuilder.register
        p.run rs) LocalBuilder.default = .ok rs' b ∧
      (∀ (s : LocalBuilder) (rest : List Reg), Sound 0 s (rs ++ rest) →
        Does rotAngle (Recursive.applySub (Recursive.makeSub b) rs.flatten) s rs.flatten (rs.flatten ++ rest.flatten) (p.wave false rs)) ∧
      ((∀ e ∈ Recursive.makeSub b, Condable e ∧ e.2.object ≠ .unitary .Y ∧ e.2.object ≠ .unitary .H) →
        ∀ (s : LocalBuilder) (crs rest : List Reg), crs ≠ [] → Sound 0 s (crs ++ rs ++ rest) →
          Does rotAngle (under crs (Recursive.applySub (Recursive.makeSub b) rs.flatten)) s (rs.flatten, crs)
            (crs.flatten ++ rs.flatten ++ rest.flatten)
            (open Classical in fun x => if ∀ c ∈ crs.flatten, x c = true then p.wave false rs x else ket x)) := by
  have hfl : (ranges 0 (rs.map List.length)).flatten = List.range rs.flatten.length := by
    rw [ranges_flatten, List.range_eq_range', List.length_flatten]
  have hn0 : (ranges 0 (rs.map List.length)).flatten.Nodup := by rw [hfl]; exact List.nodup_range
  have h := p.moves 0 [] rfl _ hp hn0
  simp only [ne_eq, not_true_eq_false, decide_false] at h
  have hpos : ∀ k ∈ rs.map List.length, 0 < k := by
    intro k hk
    obtain ⟨r, h1, rfl⟩ := List.mem_map.mp hk
    exact List.length_pos_iff.mpr (hr r h1)
  have hflne : rs.flatten ≠ [] := by
    cases rs with
    | nil => exact absurd rfl hne
    | cons r rs => have := hr r (by simp); simp [this]
  have hf := (h.does (⟨[], rs.flatten.length, [], 0⟩ : LocalBuilder) [] rfl (by
    rw [hfl, List.append_nil]; exact fresh_own _)).congrU (U' := p.wave false (ranges 0 (rs.map List.length))) fun x _ => by simp
  obtain ⟨(b : LocalBuilder), f1, -, -, f4⟩ := hf
  obtain ⟨seg, g1, g2, g3⟩ := f4.seg
  have hb : b.pipeline = seg := g1
  have h1 := registers_run (rs.map List.length) hpos LocalBuilder.default
  rw [show LocalBuilder.default.n = 0 from rfl, Nat.zero_add, ← List.length_flatten] at h1
  have hpos' : 0 < rs.flatten.length := List.length_pos_iff.mpr hflne
  have hmv0 := p.wave_move false _ hp hn0 (by rw [ranges_map_length]; exact h.keeps)
  rw [ranges_map_length, hfl] at hmv0
  have htl := touches_last hpos' (seg := seg) (fun z hz => (g3 z ((fresh_clean _ z).mpr hz)).1) hmv0 ht
  obtain ⟨m, m1, m2⟩ := maxIndex_of_touched htl
  have hV : ∀ z, (∀ i, rs.flatten.length ≤ i → z i = false) → runW rotAngle seg (ket z) = p.wave false (ranges 0 (rs.map List.length)) z ∧
      On {y | ∀ i, rs.flatten.length ≤ i → y i = false} (p.wave false (ranges 0 (rs.map List.length)) z) := fun z hz => by
    refine ⟨(g3 z ((fresh_clean _ z).mpr hz)).1, (h.keeps z).mono fun y hy i hi => ?_⟩
    rw [hy i (by rw [hfl, List.mem_range]; omega)]
    exact hz i hi
  refine ⟨ranges 0 (rs.map List.length), b, by rw [bind_ok h1]; exact f1, ?_⟩
  have hms : Recursive.makeSub (β := LocalBuilder) b = seg := hb
  simp only [hms]
  refine ⟨fun s rest hs => ?_, fun hc s crs rest hcne hs => ?_⟩
  · have ho := hs.own
    rw [show NB.conds 0 s ++ (rs ++ rest) = rs ++ rest from rfl, List.flatten_append] at ho
    have hn : rs.flatten.Nodup := (List.nodup_append.mp (List.nodup_append.mp ho.nodup).1).1
    exact (applySub_does (ang := rotAngle) (s := s) hflne m1 (by omega) g2 ho _ hV).congrU fun x _ => (p.anywhere false rs (takes_ranges hp) hn x).symm
  · have ho := hs.own
    rw [show NB.conds 0 s ++ (crs ++ rs ++ rest) = crs ++ rs ++ rest from rfl, List.flatten_append, List.flatten_append] at ho
    have hn : rs.flatten.Nodup := (List.nodup_append.mp (List.nodup_append.mp (List.nodup_append.mp ho.nodup).1).1).2.1
    refine (C58_plain_partial s crs rest.flatten seg rs.flatten (p.wave false (ranges 0 (rs.map List.length))) hcne
      (fun c hc => hs.nonempty c (by simp [hc])) hflne (fun e he => (hc e he).1) ?_ ho (fun e he => (hc e he).2)
      fun z hz => ⟨(hV z hz).1, on_iff.mp (hV z hz).2⟩).congrU fun x _ => ?_
    · obtain ⟨e, he, hq⟩ := htl
      exact ⟨e, he, _, hq, by omega⟩
    · rw [p.anywhere false rs (takes_ranges hp) hn x]

/-! ## examples -/

/-- inside two conditions the gate made before the first `condition_with` is part of the circuit -/
example : Recursive.makeSub (β := NB 2) (⟨⟨⟨[([0], ⟨1, .unitary .H⟩)], 3, [], 0⟩, some [1]⟩, some [2]⟩ : Conditioned (Conditioned LocalBuilder)) =
    [([0], ⟨1, .unitary .H⟩)] := C108_whole 2 _

/-- the program `guarded` of C105, carried out in a new builder and applied to qubits in other places -/
example := C108_elsewhere guarded [[7], [3, 1], [0, 5]] (by decide) (by decide) guarded_takes guarded_touches

/-- `cnot` with two targets, applied inside conditions -/
example : ∃ b : LocalBuilder, (do
      let rs ← ([[7], [3, 1]].map List.length).mapM LocalBuilder.register
      Prog.run (.call .cnot) rs) LocalBuilder.default = .ok [[0], [1, 2]] b ∧
    (∀ e ∈ Recursive.makeSub b, Condable e ∧ e.2.object ≠ .unitary .Y ∧ e.2.object ≠ .unitary .H) ∧
    Touches 2 (Prog.wave (.call .cnot) false [[0], [1, 2]]) := by
  refine ⟨⟨[([0, 1], ⟨2, .unitary .CNOT⟩), ([0, 2], ⟨2, .unitary .CNOT⟩)], 3, [], 0⟩, rfl, ?_, ones [0], .inl ⟨ones [0, 1, 2], ?_, by decide⟩⟩
  · intro e he
    rcases List.mem_pair.mp he with rfl | rfl <;> exact ⟨⟨by decide, .inr ⟨rfl, rfl⟩⟩, by simp, by simp⟩
  · have : Prog.wave (.call .cnot) false [[0], [1, 2]] (ones [0]) = ket (ones [0, 1, 2]) := by
      simp only [Prog.wave, Method.wave]
      rw [flipIf, if_pos (by decide), one_smul]
      congr 1
      funext q
      simp only [flipAll, ones]
      by_cases h0 : q = 0 <;> by_cases h1 : q = 1 <;> by_cases h2 : q = 2 <;> simp_all
    rw [this, ket, Finsupp.support_single_ne_zero _ one_ne_zero]
    exact Finset.mem_singleton_self _

example : Sound 0 ⟨[], 8, [], 0⟩ ([[7], [3, 1], [0, 5]] ++ [[2, 4, 6]]) := ⟨⟨by decide, by decide, by decide⟩, by decide, by intro e he; cases he⟩

end Verif.Props
