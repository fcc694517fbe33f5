import Verif.Proofs.CondGamma
import Verif.Props.Gamma
import Verif.Props.Cond

/-!
# Property C83: the `control` lines of the documentation; C38 for all sequences of gates

lib.rs L88-107 documents lines `control gamma rb, ra[0..2], ra[2]` and `control(0b110) gamma rb, ra[0..2], ra[2]` as applying
`gamma` if the register `rb` has the value 111 or that of the mask. `gamma` calls `toffoli`, which on a builder with conditions
is made of conditioned gates, H among them (C36).
-/

namespace Verif.Props
open Complex Classical Rooted

/-! ## C38: all sequences -/

/-- Sequences of any named gates and CNOTs inside at least one condition, at any depth: if the conditions hold every gate does
what it does, but H with angles of 1/4 in place of π/4 and Y with the opposite sign; otherwise nothing happens. -/
theorem C38_sequences_partial (s : LocalBuilder) (crs : List Reg) (l : List Step) (Q L : List ℕ) (h0 : crs ≠ []) (hc : ∀ c ∈ crs, c ≠ [])
    (hi : ∀ st ∈ l, st.In Q) (ho : Own s (crs.flatten ++ Q ++ L)) :
    Does rotAngle (under crs (l.forM Step.run)) s ((), crs) (crs.flatten ++ Q ++ L) (ctlW crs.flatten (condStepsW l)) :=
  under_does crs _ hc ((Moves.steps h0 l hi).does _ L (ctl_stack crs s hc) (by rw [root_stack]; exact ho))

/-- H, CNOT, Y on two qubits inside two conditions -/
example : Does rotAngle (under [[0, 1], [2]] ([Step.one .h 3, .cnot 3 4, .one .y 4].forM Step.run)) ⟨[], 5, [], 0⟩ ((), [[0, 1], [2]])
    ([0, 1, 2] ++ [3, 4] ++ []) (ctlW [0, 1, 2] (condStepsW [Step.one .h 3, .cnot 3 4, .one .y 4])) :=
  C38_sequences_partial _ [[0, 1], [2]] _ [3, 4] [] (by simp) (by simp) (by simp [Step.In]) ⟨by simp, by decide, by decide⟩

/-! ## C83 -/

/-- C83 as documented: `control` and `control(m)` lines with `gamma`, registers of the documented sizes. -/
def C83_claim : Prop :=
  ∀ (s : LocalBuilder) (rs : List Reg) (L : List ℕ) (m : Option ℕ) (g0 g1 g2 : List Sel), (∀ r ∈ rs, r ≠ []) →
    ValidGroups rs [g0, g1, g2] → (groupReg rs g1).length = 2 → (groupReg rs g2).length = 1 → Own s (rs.flatten ++ L) →
    Does rotAngle (program (β := LocalBuilder) rs [.control m gamma [g0, g1, g2]]) s rs (rs.flatten ++ L) fun x =>
      if Holds m (groupReg rs g0) x then
        lift (flipIf 1 (groupReg rs g2) (groupReg rs g1)) (flipIf 1 (groupReg rs g1) (groupReg rs g2) x)
      else ket x

/-- the operations of the lines -/
theorem control_line {rs : List Reg} {L : List ℕ} {m : Option ℕ} {g0 g1 g2 : List Sel} (hn : rs.flatten.Nodup)
    (hv : ValidGroups rs [g0, g1, g2]) {U : Asg → Wave} {as : List Reg} (e : [g1, g2].map (groupReg rs) = as)
    (hU : ∀ m x, lift (fun y => ket (negMask (groupReg rs g0) m y)) (U (negMask (groupReg rs g0) m x)) = U x)
    (h : Moves rotAngle [groupReg rs g0] (gamma as : M (Conditioned LocalBuilder) _) as as.flatten U) :
    Moves rotAngle [] (Line.call rs (.control m gamma [g0, g1, g2] : Line LocalBuilder)) ([g0, g1, g2].map (groupReg rs))
      ([g0, g1, g2].map (groupReg rs)).flatten (fun x => if Holds m (groupReg rs g0) x then U x else ket x) := by
  have hc0 : groupReg rs g0 ≠ [] := by
    have := hv.ne g0 (by simp)
    unfold groupReg
    simpa using this
  have hcn : (groupReg rs g0).Nodup := by
    obtain ⟨n1, -⟩ := groups_nodup rs hn _ hv
    rw [List.map_cons, List.flatten_cons] at n1
    exact (List.nodup_append.mp n1).1
  exact Moves.control_holds m rfl e hc0 hcn hU h

theorem groups_disj {rs : List Reg} {g0 g1 g2 : List Sel} (hn : rs.flatten.Nodup) (hv : ValidGroups rs [g0, g1, g2]) :
    (∀ q ∈ groupReg rs g1, q ∉ groupReg rs g0) ∧ ∀ q ∈ groupReg rs g2, q ∉ groupReg rs g0 := by
  obtain ⟨n1, -⟩ := groups_nodup rs hn _ hv
  simp only [List.map_cons, List.map_nil, List.flatten_cons, List.flatten_nil, List.append_nil] at n1
  have := (List.nodup_append.mp n1).2.2
  exact ⟨fun q hq h => this q h q (by simp [hq]) rfl, fun q hq h => this q h q (by simp [hq]) rfl⟩

/-- the line with two qubits and one -/
theorem line_two {rs : List Reg} {m : Option ℕ} {g0 g1 g2 : List Sel} (hn : rs.flatten.Nodup)
    (hv : ValidGroups rs [g0, g1, g2]) {a b q : ℕ} (e1 : groupReg rs g1 = [a, b]) (e2 : groupReg rs g2 = [q]) :
    Moves rotAngle [] (Line.call rs (.control m gamma [g0, g1, g2] : Line LocalBuilder)) ([g0, g1, g2].map (groupReg rs))
      ([g0, g1, g2].map (groupReg rs)).flatten (fun x => if Holds m (groupReg rs g0) x then
        lift (flipIf 1 [q] [a, b]) (turnIf [a, b] q x) else ket x) := by
  obtain ⟨d1, d2⟩ := groups_disj hn hv
  rw [e1] at d1
  rw [e2] at d2
  refine control_line (L := []) hn hv (as := [[a, b], [q]]) (by simp [e1, e2]) (fun m x => ?_) (Moves.gamma_two (by simp) a b q)
  exact comp_neg (fun x => turnIf_neg d1 (d2 q (by simp)) m x) (fun x => flipIf_neg 1 d2 d1 m x) x

/-- the line with single qubits -/
theorem line_one {rs : List Reg} {m : Option ℕ} {g0 g1 g2 : List Sel} (hn : rs.flatten.Nodup)
    (hv : ValidGroups rs [g0, g1, g2]) {a q : ℕ} (e1 : groupReg rs g1 = [a]) (e2 : groupReg rs g2 = [q]) :
    Moves rotAngle [] (Line.call rs (.control m gamma [g0, g1, g2] : Line LocalBuilder)) ([g0, g1, g2].map (groupReg rs))
      ([g0, g1, g2].map (groupReg rs)).flatten (fun x => if Holds m (groupReg rs g0) x then
        lift (flipIf 1 [q] [a]) (flipIf 1 [a] [q] x) else ket x) := by
  obtain ⟨d1, d2⟩ := groups_disj hn hv
  rw [e1] at d1
  rw [e2] at d2
  refine control_line (L := []) hn hv (as := [[a], [q]]) (by simp [e1, e2]) (fun m x => ?_) (Moves.gamma_one a q)
  exact comp_neg (fun x => flipIf_neg 1 d1 d2 m x) (fun x => flipIf_neg 1 d2 d1 m x) x

/-- What the documented lines do, for all registers and masks: as documented, but for the first `toffoli`, which turns its
target by a matrix other than X. -/
theorem C83_control_partial (s : LocalBuilder) (rs : List Reg) (L : List ℕ) (m : Option ℕ) (g0 g1 g2 : List Sel) (hr : ∀ r ∈ rs, r ≠ [])
    (hv : ValidGroups rs [g0, g1, g2]) (a b q : ℕ) (e1 : groupReg rs g1 = [a, b]) (e2 : groupReg rs g2 = [q]) (ho : Own s (rs.flatten ++ L)) :
    Does rotAngle (program (β := LocalBuilder) rs [.control m gamma [g0, g1, g2]]) s rs (rs.flatten ++ L) fun x =>
      if Holds m (groupReg rs g0) x then lift (flipIf 1 [q] [a, b]) (turnIf [a, b] q x) else ket x := by
  have hn := (List.nodup_append.mp ho.left).1
  have h := Moves.program_nodup (β := LocalBuilder) hr hn
    (Moves.lines_cons (l := .control m gamma [g0, g1, g2]) hn hv (line_two (m := m) hn hv e1 e2) rfl Moves.lines_nil)
  refine (h.does s L rfl ho).congrU fun x _ => ?_
  rw [if_pos (by simp), lift_ket_id]
  rfl

/-- With single qubits the lines do what is documented. -/
theorem C83_single_partial (s : LocalBuilder) (rs : List Reg) (L : List ℕ) (m : Option ℕ) (g0 g1 g2 : List Sel) (hr : ∀ r ∈ rs, r ≠ [])
    (hv : ValidGroups rs [g0, g1, g2]) (h1 : (groupReg rs g1).length = 1) (h2 : (groupReg rs g2).length = 1) (ho : Own s (rs.flatten ++ L)) :
    Does rotAngle (program (β := LocalBuilder) rs [.control m gamma [g0, g1, g2]]) s rs (rs.flatten ++ L) fun x =>
      if Holds m (groupReg rs g0) x then
        lift (flipIf 1 (groupReg rs g2) (groupReg rs g1)) (flipIf 1 (groupReg rs g1) (groupReg rs g2) x)
      else ket x := by
  obtain ⟨a, e1⟩ := List.length_eq_one_iff.mp h1
  obtain ⟨q, e2⟩ := List.length_eq_one_iff.mp h2
  have hn := (List.nodup_append.mp ho.left).1
  rw [e1, e2]
  have h := Moves.program_nodup (β := LocalBuilder) hr hn (Moves.lines_cons (l := .control m gamma [g0, g1, g2]) hn hv (line_one (m := m) hn hv e1 e2) rfl Moves.lines_nil)
  refine (h.does s L rfl ho).congrU fun x _ => ?_
  rw [if_pos (by simp), lift_ket_id]
  rfl

/-- A `toffoli` call with two controls and one target inside conditions, at any depth. -/
theorem C83_toffoli_partial (s : LocalBuilder) (crs : List Reg) (a b q : ℕ) (L : List ℕ) (h0 : crs ≠ []) (hc : ∀ c ∈ crs, c ≠ [])
    (ho : Own s (crs.flatten ++ [a, b, q] ++ L)) :
    Does rotAngle (under crs (toffoli [a, b] [q])) s (([a, b], [q]), crs) (crs.flatten ++ [a, b, q] ++ L) fun x =>
      if ∀ c ∈ crs.flatten, x c = true then turnIf [a, b] q x else ket x := by
  refine (under_does crs _ hc ((Moves.toffoli_two h0 a b q).does _ L (ctl_stack crs s hc) (by rw [root_stack]; exact ho))).congrU fun x _ => ?_
  rw [turnIf_eq]

/-- the mask 0b10 on two qubits, single qubits, a temporary in the builder -/
example := C83_single_partial fiveQubits [[1, 0], [2, 3]] [] (some 0b10) [(0, none)] [(1, some [1])] [(1, some [0])] (by simp)
  ⟨by decide, by decide, by decide, by unfold HasPos; decide⟩ (by decide) (by decide) ⟨by simp [fiveQubits], by decide, by decide⟩

/-- two conditions of different sizes -/
example := C83_toffoli_partial ⟨[], 7, [[6]], 0⟩ [[5], [0, 1]] 4 2 3 [] (by simp) (by simp) ⟨by simp, by decide, by decide⟩

/-- the mask of the documentation -/
example := C83_control_partial ⟨[], 7, [[6]], 0⟩ [[0, 1, 2], [3, 4, 5]] [] (some 0b110) [(1, none)] [(0, some [0, 1])] [(0, some [2])] (by simp)
  ⟨by decide, by decide, by decide, by unfold HasPos; decide⟩ 0 1 2 (by decide) (by decide) ⟨by simp, by decide, by decide⟩

/-- C83 fails: one condition, all qubits 1 but the target. Documented is the target flipped and then the two controls; the
program leaves the state as it is with the amplitude -cos ½. -/
theorem C83_refuted : ¬ C83_claim := by
  intro h
  have ho : Own (⟨[], 4, [], 0⟩ : LocalBuilder) ([[0], [1, 2], [3]].flatten ++ []) := ⟨by simp, by decide, by decide⟩
  have hv : ValidGroups [[0], [1, 2], [3]] [[(0, none)], [(1, none)], [(2, none)]] := ⟨by decide, by decide, by decide, by unfold HasPos; decide⟩
  have h1 := h _ [[0], [1, 2], [3]] [] none [(0, none)] [(1, none)] [(2, none)] (by simp) hv (by decide) (by decide) ho
  have h2 := C83_control_partial _ [[0], [1, 2], [3]] [] none [(0, none)] [(1, none)] [(2, none)] (by simp) hv 1 2 3 (by decide) (by decide) ho
  have e := does_unique h1 h2 (fun q => decide (q < 3)) ((fresh_clean 4 _).mpr fun q hq => by
    rw [decide_eq_false_iff_not]; omega)
  have e0 : groupReg [[0], [1, 2], [3]] [(0, none)] = [0] := by decide
  have e1 : groupReg [[0], [1, 2], [3]] [(1, none)] = [1, 2] := by decide
  have e2 : groupReg [[0], [1, 2], [3]] [(2, none)] = [3] := by decide
  simp only [e0, e1, e2] at e
  have hh : Holds none [0] fun q => decide (q < 3) := by unfold Holds; simp
  rw [if_pos hh, if_pos hh] at e
  generalize hx : (fun q => decide (q < 3) : Asg) = x at e
  have x1 : x 1 = true := by rw [← hx]; rfl
  have x2 : x 2 = true := by rw [← hx]; rfl
  have x3 : x 3 = false := by rw [← hx]; rfl
  have hne : ∀ y : Asg, y 3 = true → flipAll [1, 2] y ≠ x := by
    intro y hy he
    have := congrFun he 3
    rw [flipAll_not_mem _ _ _ (by decide), hy, x3] at this
    exact absurd this (by decide)
  have s3 : setQ 3 false x = x := setQ_self 3 x false x3
  have t3 : setQ 3 true x 3 = true := by simp [setQ]
  have f3 : flipAll [3] x 3 = true := by unfold flipAll; rw [if_pos (by simp), x3]; rfl
  have k1 : ∀ q ∈ [1, 2], x q = true := by simp [x1, x2]
  have eL : lift (flipIf 1 [3] [1, 2]) (flipIf 1 [1, 2] [3] x) = ket (flipAll [1, 2] (flipAll [3] x)) := by
    have : flipIf 1 [1, 2] [3] x = ket (flipAll [3] x) := by unfold flipIf; rw [if_pos k1, one_smul]
    rw [this, lift_ket, flipIf_one, if_pos f3]
  have eR : lift (flipIf 1 [3] [1, 2]) (turnIf [1, 2] 3 x) =
      (-cos (1 / 2)) • ket x + sin (1 / 2) • ket (flipAll [1, 2] (setQ 3 true x)) := by
    unfold turnIf
    rw [if_pos k1, gate1_ket, map_add, map_smul, map_smul, lift_ket, lift_ket, s3, flipIf_one, flipIf_one, if_neg (by simp [x3]), if_pos t3, x3]
    simp [mat2]
  rw [eL, eR] at e
  have e3 := DFunLike.congr_fun e x
  rw [Finsupp.add_apply, Finsupp.smul_apply, Finsupp.smul_apply, ket_apply, ket_apply, ket_apply, if_neg (hne _ f3), if_pos rfl,
    if_neg (hne _ t3)] at e3
  have : cos (1 / 2 : ℂ) = 0 := by simpa using e3
  have h5 : Real.cos (1 / 2) = 0 := by
    have e : ((Real.cos (1 / 2) : ℝ) : ℂ) = 0 := by push_cast; exact this
    exact_mod_cast e
  have h6 : 0 < Real.cos (1 / 2) := Real.cos_pos_of_mem_Ioo ⟨by linarith [Real.two_le_pi], by linarith [Real.two_le_pi]⟩
  exact absurd h5 h6.ne'

/-- lines with `gamma` -/
inductive GLine where
  | plain (g1 g2 : List Sel)
  | control (m : Option ℕ) (g0 g1 g2 : List Sel)

/-- the line in a program -/
noncomputable def GLine.line : GLine → Line LocalBuilder
  | .plain g1 g2 => .plain gamma [g1, g2]
  | .control m g0 g1 g2 => .control m gamma [g0, g1, g2]

/-- existing registers and positions, none of them twice; the sizes of `control` lines are those of the documentation -/
def GLine.Valid (rs : List Reg) : GLine → Prop
  | .plain g1 g2 => ValidGroups rs [g1, g2]
  | .control _ g0 g1 g2 => ValidGroups rs [g0, g1, g2] ∧ (groupReg rs g1).length = 2 ∧ (groupReg rs g2).length = 1

/-- what a line does: as documented, but for the factors of `toffoli` (C32) and the first `toffoli` of a `control` line -/
noncomputable def GLine.wave (rs : List Reg) : GLine → Asg → Wave
  | .plain g1 g2 => fun x =>
    let ra := groupReg rs g1
    let rb := groupReg rs g2
    lift (flipIf (tofC rb.length ra.length) rb ra) (flipIf (tofC ra.length rb.length) ra rb x)
  | .control m g0 g1 g2 => fun x =>
    let ra := groupReg rs g1
    let rb := groupReg rs g2
    if Holds m (groupReg rs g0) x then lift (flipIf 1 rb ra) (turnIf ra (rb.getD 0 0) x) else ket x

theorem flipIf_keeps (c : ℂ) (cr r Q : Reg) (h : ∀ q ∈ r, q ∈ Q) (x : Asg) : On {y | ∀ q, q ∉ Q → y q = x q} (flipIf c cr r x) := by
  unfold flipIf
  split
  · refine (On.ket ?_).smul _
    intro q hq
    exact flipAll_not_mem _ _ _ fun hr => hq (h q hr)
  · exact On.ket fun _ _ => rfl

theorem gamma_free (ra rb : Reg) (ha : ra ≠ []) (hb : rb ≠ []) :
    Moves rotAngle [] (gamma [ra, rb] : M LocalBuilder _) [ra, rb] (ra ++ rb) fun x =>
      lift (flipIf (tofC rb.length ra.length) rb ra) (flipIf (tofC ra.length rb.length) ra rb x) where
  keeps := Moves.lift_keeps (fun x => flipIf_keeps _ _ _ _ (fun q hq => List.mem_append_right _ hq) x)
    (fun x => flipIf_keeps _ _ _ _ (fun q hq => List.mem_append_left _ hq) x)
  does s L hs ho := (C82_gamma rotAngle s ra rb L ha hb ho).congrU fun x _ => by rw [if_pos (by simp)]

theorem gline_moves {rs : List Reg} (hn : rs.flatten.Nodup) (l : GLine) (hv : l.Valid rs) :
    Moves rotAngle [] (Line.call rs l.line) (l.line.groups.map (groupReg rs)) (l.line.groups.map (groupReg rs)).flatten (l.wave rs) := by
  cases l with
  | plain g1 g2 =>
    have hne : ∀ g ∈ [g1, g2], groupReg rs g ≠ [] := fun g hg => by
      have := hv.ne g hg
      unfold groupReg; simpa using this
    have h := gamma_free (groupReg rs g1) (groupReg rs g2) (hne g1 (by simp)) (hne g2 (by simp))
    have e : ([g1, g2].map (groupReg rs)).flatten = groupReg rs g1 ++ groupReg rs g2 := by simp
    show Moves rotAngle [] (Line.call rs (.plain gamma [g1, g2])) ([g1, g2].map (groupReg rs)) ([g1, g2].map (groupReg rs)).flatten _
    rw [e]
    exact h
  | control m g0 g1 g2 =>
    obtain ⟨hv, h1, h2⟩ := hv
    obtain ⟨a, b, e1⟩ := List.length_eq_two.mp h1
    obtain ⟨q, e2⟩ := List.length_eq_one_iff.mp h2
    refine (line_two (m := m) hn hv e1 e2).congr fun x => ?_
    show _ = if Holds m (groupReg rs g0) x then lift (flipIf 1 (groupReg rs g2) (groupReg rs g1))
      (turnIf (groupReg rs g1) ((groupReg rs g2).getD 0 0) x) else ket x
    rw [e1, e2]
    rfl

/-- Programs of any number of such lines, plain ones with registers of all sizes: one after the other. -/
theorem C83_program_partial (s : LocalBuilder) (rs : List Reg) (L : List ℕ) (hr : ∀ r ∈ rs, r ≠ []) (ls : List GLine)
    (hv : ∀ l ∈ ls, l.Valid rs) (ho : Own s (rs.flatten ++ L)) :
    Does rotAngle (program (β := LocalBuilder) rs (ls.map GLine.line)) s rs (rs.flatten ++ L) fun x =>
      (ls.map fun l => lift (l.wave rs)).foldl (fun ψ W => W ψ) (ket x) := by
  have hn := (List.nodup_append.mp ho.left).1
  have key : ∀ ls : List GLine, (∀ l ∈ ls, l.Valid rs) → Moves rotAngle [] ((ls.map GLine.line).foldlM runLine (full rs)) (full rs) rs.flatten
      fun x => (ls.map fun l => lift (l.wave rs)).foldl (fun ψ W => W ψ) (ket x) := by
    intro ls hv
    induction ls with
    | nil => exact Moves.lines_nil
    | cons l ls ih =>
      have hvl : ValidGroups rs l.line.groups := by
        have := hv l (by simp)
        cases l with
        | plain g1 g2 => exact this
        | control m g0 g1 g2 => exact this.1
      refine (Moves.lines_cons (l := l.line) hn hvl (gline_moves hn l (hv l (by simp))) rfl (ih fun t ht => hv t (by simp [ht]))).congr fun x => ?_
      rw [List.map_cons, List.foldl_cons, lift_ket]
      have e : ∀ (Ws : List (Wave →ₗ[ℂ] Wave)) (ψ : Wave), lift (fun x => Ws.foldl (fun ψ W => W ψ) (ket x)) ψ = Ws.foldl (fun ψ W => W ψ) ψ := by
        intro Ws
        induction Ws using List.reverseRecOn with
        | nil => intro ψ; simp only [List.foldl_nil]; rw [lift_ket_id]; rfl
        | append_singleton Ws W ih =>
          intro ψ
          simp only [List.foldl_append, List.foldl_cons, List.foldl_nil]
          rw [← ih ψ]
          have : lift (fun x => W (Ws.foldl (fun ψ W => W ψ) (ket x))) = W ∘ₗ lift (fun x => Ws.foldl (fun ψ W => W ψ) (ket x)) :=
            wave_ext fun y => by rw [lift_ket, LinearMap.comp_apply, lift_ket]
          rw [this]; rfl
      exact e _ _
  refine ((Moves.program_nodup (β := LocalBuilder) hr hn (key ls hv)).does s L rfl ho).congrU fun x _ => ?_
  rw [if_pos (by simp)]

/-- the lines of the documented program -/
def docLines : List GLine :=
  [.plain [(0, some [0, 1])] [(0, some [2])], .plain [(0, some [0]), (1, some [0])] [(0, some [2])],
    .plain [(0, some [0])] [(1, some [0]), (0, some [2])], .control none [(1, none)] [(0, some [0, 1])] [(0, some [2])],
    .control (some 0b110) [(1, none)] [(0, some [0, 1])] [(0, some [2])]]

/-- The documented program builds, returns all six qubits in one register, and does what the lines above do. -/
theorem C83_example : ∃ s, macroExample LocalBuilder.default = .ok [0, 1, 2, 3, 4, 5] s ∧
    ∀ (a b : ℕ) (rnds : ℕ → ℝ), ∃ v, s.calculateStateWithInit [([0, 1, 2], a), ([3, 4, 5], b)] rnds = some (v, []) ∧
      Rep s.n v ((docLines.map fun l => lift (l.wave [[0, 1, 2], [3, 4, 5]])).foldl (fun ψ W => W ψ)
        (ket (initAsg [([0, 1, 2], a), ([3, 4, 5], b)]))) := by
  have ho : Own ⟨[], 6, [], 0⟩ ([[0, 1, 2], [3, 4, 5]].flatten ++ []) := ⟨by simp, by simp, by simp⟩
  obtain ⟨s, h1, -, -, h4⟩ := C83_program_partial ⟨[], 6, [], 0⟩ [[0, 1, 2], [3, 4, 5]] [] (by simp) docLines (by
    intro l hl
    unfold docLines at hl
    simp only [List.mem_cons, List.not_mem_nil, or_false] at hl
    rcases hl with rfl | rfl | rfl | rfl | rfl
    · exact ⟨by decide, by decide, by decide, by unfold HasPos; decide⟩
    · exact ⟨by decide, by decide, by decide, by unfold HasPos; decide⟩
    · exact ⟨by decide, by decide, by decide, by unfold HasPos; decide⟩
    · exact ⟨⟨by decide, by decide, by decide, by unfold HasPos; decide⟩, by decide, by decide⟩
    · exact ⟨⟨by decide, by decide, by decide, by unfold HasPos; decide⟩, by decide, by decide⟩) ho
  refine ⟨s, ?_, ?_⟩
  · unfold macroExample
    rw [bind_ok (register_run 3 (by norm_num) _), bind_ok (register_run 3 (by norm_num) _)]
    exact bind_ok (s := (⟨[], 6, [], 0⟩ : LocalBuilder)) h1
  · intro a b rnds
    obtain ⟨seg, g1, g2, g3⟩ := h4.seg
    have hs : s.pipeline = seg := g1
    have hn : 6 ≤ s.n := h4.n_le
    obtain ⟨v, v1, v2⟩ := calculate_unitary s [([0, 1, 2], a), ([3, 4, 5], b)] (by
      intro p hp q hq
      simp only [List.mem_cons, List.not_mem_nil, or_false] at hp
      rcases hp with rfl | rfl <;> simp at hq <;> omega) (by rw [hs]; exact fun e he => (g2 e he).1) rnds
    refine ⟨v, v1, ?_⟩
    rw [hs] at v2
    have := (g3 (initAsg [([0, 1, 2], a), ([3, 4, 5], b)]) ?_).1
    · rw [this] at v2
      exact v2
    · refine (fresh_clean 6 _).mpr fun i hi => ?_
      unfold initAsg
      rw [decide_eq_false_iff_not]
      rintro ⟨p, hp, k, hk, -⟩
      have := List.mem_of_getElem? hk
      simp only [List.mem_cons, List.not_mem_nil, or_false] at hp
      rcases hp with rfl | rfl <;> simp at this <;> omega

end Verif.Props
