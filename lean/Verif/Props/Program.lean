import Verif.Proofs.Masked
import Verif.Props.Cond

/-!
# Properties C50 and C51: `negate_bitmask` and the lines of `program!`

`Spec/Program.lean` says which qubits a line selects (`groupReg`). `NB k` is a builder inside `k` conditions and `under crs`
runs a method inside the conditions `crs` (`Spec/Nest.lean`).
-/

namespace Verif.Props
open Classical RegOps CircuitBuilder Rooted

/-! ## C50 -/

/-- `negate_bitmask` flips exactly the qubits whose mask bit is 0, and returns its register, under any conditions. -/
theorem C50_negate (ang : Rot → ℝ) (s : LocalBuilder) (crs : List Reg) (r : Reg) (m : ℕ) (L : List ℕ) (hc : ∀ c ∈ crs, c ≠ []) (hr : r ≠ [])
    (ho : Own s (crs.flatten ++ r ++ L)) :
    Does ang (under crs (negateBitmask r m)) s (r, crs) (crs.flatten ++ r ++ L)
      (fun x => ket (if ∀ c ∈ crs.flatten, x c = true then negMask r m x else x)) :=
  (Maps.negateBitmask crs r hr m).under hc s L ho

/-- What flipping means, qubit by qubit: qubit `k` of the register is flipped if bit `k` of the mask is 0, every other qubit
keeps its value. -/
theorem C50_negate_qubits (r : Reg) (hn : r.Nodup) (m : ℕ) (x : Asg) :
    (∀ k (hk : k < r.length), negMask r m x r[k] = if m.testBit k then x r[k] else !x r[k]) ∧
    ∀ q, q ∉ r → negMask r m x q = x q := by
  refine ⟨fun k hk => ?_, fun q hq => Maps.negMask_keeps r m x q hq⟩
  unfold negMask
  rw [hn.idxOf_getElem]
  cases m.testBit k <;> simp

/-- Twice is nothing. -/
theorem C50_self_inverse (ang : Rot → ℝ) (s : LocalBuilder) (crs : List Reg) (r : Reg) (m : ℕ) (L : List ℕ) (hc : ∀ c ∈ crs, c ≠ [])
    (hr : r ≠ []) (ho : Own s (crs.flatten ++ r ++ L)) :
    Does ang (under crs (negateBitmask r m >>= fun r => negateBitmask r m)) s (r, crs) (crs.flatten ++ r ++ L) ket := by
  refine (((Maps.negateBitmask crs r hr m).bind (Maps.negateBitmask crs r hr m)).under hc s L ho).congrU fun x _ => ?_
  rw [Maps.negMask_negMask, ite_self]

/-- A line `control(m) f r, …` inside the conditions `crs`: if `f` under conditions does `V` on its registers when all of
them hold, the line does `V` exactly if the conditions `crs` hold and the first register holds the value of the mask. -/
theorem C50_control (ang : Rot → ℝ) (s : LocalBuilder) (crs : List Reg) (hc : ∀ c ∈ crs, c ≠ []) (rs : List Reg)
    (m : ℕ) (f : List Reg → M (Conditioned (NB crs.length)) (List Reg)) (g0 : List Sel) (gs : List (List Sel)) (hv : ValidGroups rs (g0 :: gs))
    (V : Asg → Wave) (L : List ℕ)
    (hf : ∀ (t : Conditioned (NB crs.length)) (L' : List ℕ), ctl t = some (groupReg rs g0 :: crs) →
      Own (root t) ((groupReg rs g0 :: crs).flatten ++ L') →
      (∀ q ∈ (gs.map (groupReg rs)).flatten, q ∈ L') →
      Does ang (f (gs.map (groupReg rs))) t (gs.map (groupReg rs)) ((groupReg rs g0 :: crs).flatten ++ L') (fun x =>
        if ∀ c ∈ (groupReg rs g0 :: crs).flatten, x c = true then moveW (gs.map (groupReg rs)).flatten V x else ket x))
    (ho : Own s (crs.flatten ++ rs.flatten ++ L)) :
    Does ang (under crs (runLine (full rs) (.control (some m) f (g0 :: gs)))) s (full rs, crs) (crs.flatten ++ rs.flatten ++ L) (fun x =>
      if (∀ c ∈ crs.flatten, x c = true) ∧ valQ (groupReg rs g0) x = m % 2 ^ (groupReg rs g0).length then
        moveW (gs.map (groupReg rs)).flatten V x else ket x) := by
  have hn : rs.flatten.Nodup := (List.nodup_append.mp (List.nodup_append.mp ho.left).1).2.1
  obtain ⟨n1, n2⟩ := groups_nodup rs hn _ hv
  rw [List.map_cons, List.flatten_cons] at n1 n2
  obtain ⟨R, hR⟩ := own_front _ n1 n2 ho
  have hp : (crs.flatten ++ rs.flatten ++ L).Perm ((groupReg rs g0 :: crs).flatten ++ ((gs.map (groupReg rs)).flatten ++ R)) := by
    refine hR.trans ?_
    rw [List.flatten_cons]
    simp only [← List.append_assoc]
    exact ((List.perm_append_comm.append_right _).append_right _)
  have hc0 : groupReg rs g0 ≠ [] := by
    have := hv.ne g0 (by simp)
    unfold groupReg
    simpa using this
  have hdis := disj crs.flatten rs.flatten L s ho
  have h1 := masked_does (β := NB crs.length) (ang := ang) (cs := crs) hc0 m (f := f (gs.map (groupReg rs))) (a := gs.map (groupReg rs))
    (R := (gs.map (groupReg rs)).flatten) (V := V) (L := (gs.map (groupReg rs)).flatten ++ R)
    (fun q hq => ⟨fun hq' => List.disjoint_of_nodup_append n1 hq' hq, fun hq' => hdis q hq' (n2 q (List.mem_append_right _ hq))⟩)
    (fun t ht hot => hf t _ ht hot (fun q hq => by simp only [List.mem_append]; exact Or.inl hq))
    (stack crs s) (ctl_stack crs s hc) (by rw [root_stack]; exact ho.perm hp)
  refine under_does crs _ hc (Does.line (β := NB crs.length) (l := .control (some m) f (g0 :: gs)) hn hv ?_)
  refine Does.congr (U := fun x =>
      if (∀ c ∈ crs.flatten, x c = true) ∧ valQ (groupReg rs g0) x = m % 2 ^ (groupReg rs g0).length then
        moveW (gs.map (groupReg rs)).flatten V x else ket x) ?_ rfl hp.symm fun x _ => rfl
  exact h1

example (ang : Rot → ℝ) : Does ang (under [[0], [3]] (negateBitmask [1, 2] 2)) fiveQubits ([1, 2], [[0], [3]]) ([0, 3] ++ [1, 2] ++ [])
    (fun x => ket (if ∀ c ∈ ([[0], [3]] : List Reg).flatten, x c = true then negMask [1, 2] 2 x else x)) :=
  C50_negate ang fiveQubits [[0], [3]] [1, 2] 2 [] (by simp) (by simp) ⟨by simp [fiveQubits], by decide, by decide⟩

/-- mask 2 on the register `[1, 2]`: qubit 1 is flipped, qubit 2 is not -/
example : negMask [1, 2] 2 (fun _ => false) = fun q => decide (q = 1) := by
  funext q
  have h := C50_negate_qubits [1, 2] (by decide) 2 (fun _ => false)
  by_cases h1 : q = 1
  · subst h1; exact h.1 0 (by decide)
  · by_cases h2 : q = 2
    · subst h2; exact h.1 1 (by decide)
    · rw [h.2 q (by simp [h1, h2])]; simp [h1]

example (ang : Rot → ℝ) := C50_self_inverse ang fiveQubits [[0], [3]] [1, 2] 2 [] (by simp) (by simp)
  ⟨by simp [fiveQubits], by decide, by decide⟩

/-- `control(2) x r0, r1[1]` with the registers `[1, 2]` and `[0, 3]`: qubit 3 is flipped if qubit 1 is 0 and qubit 2 is 1 -/
example (ang : Rot → ℝ) : Does ang (under [] (runLine (full [[1, 2], [0, 3]])
      (.control (some 2) (op1 Gate.x) [[(0, none)], [(1, some [1])]] : Line (NB 0)))) fiveQubits (full [[1, 2], [0, 3]], [])
    ([] ++ [1, 2, 0, 3] ++ []) (fun x => if (∀ c ∈ ([] : Reg), x c = true) ∧ valQ [1, 2] x = 2 then moveW [3] (fun z => ket (flipQ 0 z)) x else ket x) := by
  refine C50_control ang fiveQubits [] (by simp) [[1, 2], [0, 3]] 2 (op1 Gate.x) [(0, none)] [[(1, some [1])]]
    ⟨by decide, by decide, by decide, by unfold HasPos; decide⟩ _ [] (fun t L ht ho hL => ?_) ⟨by simp [fiveQubits], by decide, by decide⟩
  have e0 : groupReg [[1, 2], [0, 3]] [(0, none)] = [1, 2] := by decide
  have e1 : ([[(1, some [1])]].map (groupReg [[1, 2], [0, 3]])) = [[3]] := by decide
  rw [e0] at ht ho ⊢
  rw [e1] at hL ⊢
  have h := (Maps.op1 (Maps.x (ang := ang) (β := Conditioned (NB 0)) [[1, 2]] 3)).mono (Q' := L) (by simp) (by simpa using hL)
  have h' := h.does t [] ht (by simpa using ho)
  refine Does.congr (U := fun x => ket (if ∀ c ∈ ([[1, 2]] : List Reg).flatten, x c = true then flipQ 3 x else x)) h' rfl
    (by simp) fun x _ => ?_
  have e : moveW [3] (fun z => ket (flipQ 0 z)) x = ket (flipQ 3 x) := by
    rw [moveW_eq, embW_ket]
    congr 1
    funext q
    unfold emb
    by_cases hq : q = 3
    · subst hq; simp [flipQ_self, pull]
    · simp [hq, flipQ_of_ne]
  show ket (if ∀ c ∈ ([[1, 2]] : List Reg).flatten, x c = true then flipQ 3 x else x) =
    if ∀ c ∈ ([[1, 2]] : List Reg).flatten, x c = true then moveW [3] (fun z => ket (flipQ 0 z)) x else ket x
  rw [e]
  split <;> rfl

/-! ## C51 -/

/-- The register a group of selectors stands for: the registers one after the other, a register without indices entirely, with
indices the qubits at these positions in this order. -/
theorem C51_selects (rs : List Reg) (k : ℕ) (g : List Sel) :
    groupReg rs [] = [] ∧ groupReg rs ((k, none) :: g) = rs.getD k [] ++ groupReg rs g ∧
    ∀ is, groupReg rs ((k, some is) :: g) = at' (rs.getD k []) is ++ groupReg rs g := by
  refine ⟨rfl, ?_, fun is => ?_⟩
  · unfold groupReg groupPos
    rw [List.flatMap_cons, List.map_append]
    congr 1
    refine List.ext_getElem (by simp [selPos]) fun i h1 h2 => ?_
    simp only [selPos, List.getElem_map, List.getElem_range, qubitAt]
    rw [List.getD_eq_getElem]
  · unfold groupReg groupPos
    rw [List.flatMap_cons, List.map_append]
    congr 1
    unfold selPos at' qubitAt
    simp

variable {k : ℕ} {rs : List Reg}

/-- A line whose groups are well formed calls its function with the registers the groups stand for (`Line.call`), and if the
function gives these registers back, all registers are as before the line. -/
theorem C51_line (hn : rs.flatten.Nodup) {l : Line (NB k)} (hv : ValidGroups rs l.groups) {s s' : NB k}
    (h : l.call rs s = .ok (l.groups.map (groupReg rs)) s') : runLine (full rs) l s = .ok (full rs) s' :=
  runLine_ok hn hv h

/-- If the function fails, the line fails in the same way. -/
theorem C51_line_fails {l : Line (NB k)} (hv : ValidGroups rs l.groups) {s s' : NB k} {e : Fail} (h : l.call rs s = .error e s') :
    runLine (full rs) l s = .error e s' :=
  runLine_err hv h

/-- A line that selects a qubit twice or a qubit that does not exist, or has an empty group, panics before calling anything. -/
theorem C51_line_invalid {l : Line (NB k)} (hv : ¬ ValidGroups rs l.groups) (s : NB k) : runLine (full rs) l s = .error .panic s :=
  runLine_invalid hv s

/-- A program calls the functions of its lines one after the other with the registers they select and returns every register with
its original qubits in the original order. -/
theorem C51_program (hr : ∀ r ∈ rs, r ≠ []) (hn : rs.flatten.Nodup) (lines : List (Line (NB k)))
    (hv : ∀ l ∈ lines, ValidGroups rs l.groups) {s s' : NB k} (h : Runs rs lines s s') : program rs lines s = .ok rs s' :=
  program_run hr hn lines hv h

/-- The first failing line ends the program. -/
theorem C51_program_fails (hr : ∀ r ∈ rs, r ≠ []) (hn : rs.flatten.Nodup) (pre post : List (Line (NB k))) (l : Line (NB k))
    (hv : ∀ k ∈ pre, ValidGroups rs k.groups) {s s' s'' : NB k} {e : Fail} (h : Runs rs pre s s')
    (hl : runLine (full rs) l s' = .error e s'') : program rs (pre ++ l :: post) s = .error e s'' :=
  program_fail hr hn pre post l hv h hl

/-- the groups `(r0[2], r1)` and `r0[0]` stand for the registers `[9, 4, 5]` and `[7]` -/
example : groupReg [[7, 8, 9], [4, 5]] [(0, some [2]), (1, none)] = [9, 4, 5] ∧ groupReg [[7, 8, 9], [4, 5]] [(0, some [0])] = [7] := by
  decide

/-- `cnot r0[1], r1` -/
noncomputable def cnotLine : Line (NB 0) := .plain (op2 cnot) [[(0, some [1])], [(1, none)]]

theorem cnotLine_call : cnotLine.call [[0, 1], [2, 3]] fiveQubits =
    .ok [[1], [2, 3]] { fiveQubits with pipeline := [([1, 2], ⟨2, .unitary .CNOT⟩), ([1, 3], ⟨2, .unitary .CNOT⟩)] } := by
  show (cnot [1] [2, 3] >>= fun p => pure [p.1, p.2]) fiveQubits = _
  rw [bind_ok (cnot_emits 1 [2, 3] (by simp) (by simp) fiveQubits)]
  rfl

theorem cnotLine_valid : ValidGroups [[0, 1], [2, 3]] cnotLine.groups := ⟨by decide, by decide, by decide, by unfold HasPos; decide⟩

example : program [[0, 1], [2, 3]] [cnotLine] fiveQubits =
    .ok [[0, 1], [2, 3]] { fiveQubits with pipeline := [([1, 2], ⟨2, .unitary .CNOT⟩), ([1, 3], ⟨2, .unitary .CNOT⟩)] } :=
  C51_program (k := 0) (by decide) (by decide) [cnotLine] (by simpa using cnotLine_valid) ⟨_, cnotLine_call, rfl⟩

/-- `x r0[0], r0[0]`: the second selection of qubit 0 panics, after the first line has run -/
example : program [[0, 1], [2, 3]] ([cnotLine] ++ .plain (op2 cnot) [[(0, some [0])], [(0, some [0])]] :: [cnotLine]) fiveQubits =
    .error .panic { fiveQubits with pipeline := [([1, 2], ⟨2, .unitary .CNOT⟩), ([1, 3], ⟨2, .unitary .CNOT⟩)] } :=
  C51_program_fails (k := 0) (by decide) (by decide) [cnotLine] [cnotLine] _ (by simpa using cnotLine_valid) ⟨_, cnotLine_call, rfl⟩
    (C51_line_invalid (fun h => absurd h.nodup (by decide)) _)

/-- `cnot (r0[0], r0[1]), r1`: the function's error is the line's -/
example : ∃ s', runLine (full [[0, 1], [2, 3]]) (.plain (op2 cnot) [[(0, some [0, 1])], [(1, none)]] : Line (NB 0)) fiveQubits = .error .error s' :=
  ⟨_, C51_line_fails (k := 0) ⟨by decide, by decide, by decide, by unfold HasPos; decide⟩ rfl⟩

end Verif.Props
