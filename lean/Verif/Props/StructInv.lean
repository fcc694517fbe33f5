import Verif.Proofs.Adjoint
import Verif.Props.Struct

/-!
# Property C107: inverses of structured programs

Outside conditions structured programs are unitary. `inverter` and `#[invert]` of a structured program do its adjoint, the conjugate transposed matrix,
and can be used in structured programs again. What a program does does not depend on which qubits its registers have.
-/

namespace Verif.Props
open Rooted Complex

/-- C107: what a program does to its registers does not depend on which qubits they are: it is what it does to the registers `0, 1, …` of a new
builder. -/
theorem C107_anywhere (p : Prog) (inside : Bool) (rs : List Reg) (hp : p.Takes inside rs) (hn : rs.flatten.Nodup) (x : Asg) :
    p.wave inside rs x = moveW rs.flatten (p.wave inside (ranges 0 (rs.map List.length))) x := p.anywhere inside rs hp hn x

/-- C107: outside conditions a structured program preserves the length of all states. -/
theorem C107_unitary (p : Prog) (rs : List Reg) (hp : p.Takes false rs) (hn : rs.flatten.Nodup) (ψ : Wave) :
    normW (Finsupp.linearCombination ℂ (p.wave false rs) ψ) = normW ψ :=
  normW_of_undo hn (p.keepsW false rs hp hn) (fun x => (p.undo rs hp hn x).1) ψ

/-- C107: `inverter` and `#[invert]` of a structured program that has to do with the last qubit of its registers return the registers and do
the inverse: its amplitudes are the conjugate amplitudes of the program the other way round, and it undoes the program and the program undoes it. -/
theorem C107_inverse (p : Prog) (s : LocalBuilder) (rs rest : List Reg) (hne : rs ≠ []) (hr : ∀ r ∈ rs, r ≠ [])
    (hp : p.Takes false (ranges 0 (rs.map List.length)))
    (ht : Touches (rs.flatten.length - 1) (p.wave false (ranges 0 (rs.map List.length)))) (h : Sound 0 s (rs ++ rest)) :
    ∃ V : Asg → Wave,
      Does rotAngle (inverter rs fun rs => p.run rs) s rs (rs.flatten ++ rest.flatten) V ∧
      Does rotAngle (invertFn (fun rs => p.run rs) rs) s rs (rs.flatten ++ rest.flatten) V ∧
      (∀ x y, V x y = (starRingEnd ℂ) (p.wave false rs y x)) ∧
      ∀ x, Finsupp.linearCombination ℂ V (p.wave false rs x) = ket x ∧ Finsupp.linearCombination ℂ (p.wave false rs) (V x) = ket x := by
  have ho := h.own
  rw [show NB.conds 0 s ++ (rs ++ rest) = rs ++ rest from rfl, List.flatten_append] at ho
  have hn : rs.flatten.Nodup := (List.nodup_append.mp (List.nodup_append.mp ho.nodup).1).1
  have hp' := takes_ranges hp
  have ht' : ∀ attr, (Prog.inv attr p).Takes false rs := fun attr => by simp only [Prog.Takes]; exact ⟨trivial, hne, hr, hp, ht⟩
  refine ⟨daggerW rs.flatten (p.wave false rs), ?_, ?_, fun x y => dagger_amp hn (p.keepsW false rs hp' hn) x y, p.undo rs hp' hn⟩
  · have := C105_outside (.inv false p) s rs rest (ht' false) h
    simpa only [Prog.run, Prog.wave, Bool.false_eq_true, if_false] using this
  · have := C105_outside (.inv true p) s rs rest (ht' true) h
    simpa only [Prog.run, Prog.wave, if_true] using this

/-- C107: the inverse of a program can be inverted again, which gives the program. -/
theorem C107_twice (p : Prog) (attr attr' : Bool) (rs : List Reg) (hn : rs.flatten.Nodup) (hp : (Prog.inv attr p).Takes false rs) :
    (Prog.inv attr' (.inv attr p)).Takes false rs ∧ (Prog.inv attr' (.inv attr p)).wave false rs = p.wave false rs := by
  have hp' := hp
  simp only [Prog.Takes] at hp'
  obtain ⟨-, h1, h2, h3, h4⟩ := hp'
  have hl := ranges_map_length (rs.map List.length) 0
  constructor
  · have hd := (Prog.inv attr p).takes_congr false rs (ranges 0 (rs.map List.length)) hl hp
    have ht := touches_dagger (ranges_nodup _) (p.keepsW false _ h3 (ranges_nodup _)) h4
    have e : (Prog.inv attr p).wave false (ranges 0 (rs.map List.length)) =
        daggerW (ranges 0 (rs.map List.length)).flatten (p.wave false (ranges 0 (rs.map List.length))) := by
      funext x
      simp only [Prog.wave]
    rw [Prog.Takes]
    rw [e]
    exact ⟨rfl, h1, h2, hd, ht⟩
  · funext x
    simp only [Prog.wave]
    rw [← dagger_dagger hn (p.keepsW false rs (takes_ranges h3) hn) x]

/-! ## examples -/

theorem guarded_touches : Touches 4 (guarded.wave false [[0], [1, 2], [3, 4]]) := by
  refine ⟨ones [0, 2, 3], .inl ⟨ones [0, 1, 4], ?_, by decide⟩⟩
  rw [guarded_wave, ket, Finsupp.support_single_ne_zero _ one_ne_zero]
  exact Finset.mem_singleton_self _

/-- a program followed by its inverse, on registers in other places -/
def thereAndBack : Prog := .seq guarded (.inv true guarded)

theorem thereAndBack_takes : thereAndBack.Takes false [[7], [3, 1], [0, 5]] := by
  have h := guarded_takes
  simp only [thereAndBack, Prog.Takes]
  exact ⟨guarded.takes_congr false [[0], [1, 2], [3, 4]] _ rfl h, trivial, by decide, by decide, h, guarded_touches⟩

example (x : Asg) : thereAndBack.wave false [[7], [3, 1], [0, 5]] x = ket x := by
  have h := thereAndBack_takes
  simp only [thereAndBack, Prog.Takes] at h
  simp only [thereAndBack, Prog.wave]
  exact (guarded.undo _ h.1 (by decide) x).1

example : Does rotAngle (thereAndBack.run [[7], [3, 1], [0, 5]]) (⟨[], 8, [], 0⟩ : LocalBuilder) [[7], [3, 1], [0, 5]] [7, 3, 1, 0, 5, 2, 4, 6]
    (thereAndBack.wave false [[7], [3, 1], [0, 5]]) :=
  C105_outside thereAndBack _ _ [[2, 4, 6]] thereAndBack_takes ⟨⟨by decide, by decide, by decide⟩, by decide, by intro e he; cases he⟩

example : normW (Finsupp.linearCombination ℂ (mixed.wave false [[0, 1], [2, 3], [4, 5, 6]]) (ket (ones [2, 4]))) = 1 := by
  rw [C107_unitary mixed _ mixed_takes (by decide)]
  simp [normW, ket, Finsupp.sum_single_index]

end Verif.Props
