import Verif.Proofs.QuietMod
import Verif.Spec.Circuits
import Verif.Props.AddMod

/-!
# Properties C68, C69: all arithmetic circuits run, and do nothing if their conditions do not hold

C68: inside conditions one of which does not hold, every arithmetic circuit, from `copy` to `exp_mod`, does nothing, whatever
the numbers; all temporaries come back clean. C69: with registers of fitting sizes every arithmetic circuit succeeds, in every
builder, and gives back registers and conditions; other sizes are an error and change nothing.
-/

namespace Verif.Props
open Classical Complex RegOps CircuitBuilder Rooted

/-! ## what is shown about the circuits -/

theorem length_five {rs : List Reg} (h0 : rs.length = 5) : ∃ a b c d e, rs = [a, b, c, d, e] := by
  match rs, h0 with
  | [a, b, c, d, e], _ => exact ⟨a, b, c, d, e, rfl⟩

theorem circ_quiet {β : Type} [Recursive β] [Rooted β] [SubSim β] {cs : List Reg} (c : Circ) (rs : List Reg) (hr : ∀ r ∈ rs, r ≠ [])
    (hf : c.Fits (rs.map List.length)) : Quiet cs (c.run rs : M β _) rs rs.flatten ∅ := by
  have hT : ∀ {m : M β (List Reg)} {rs T}, Quiet cs m rs rs.flatten T → Quiet cs m rs rs.flatten ∅ := fun h => h.congr fun o ho => ho.elim
  have pos : ∀ r ∈ rs, 0 < r.length := fun r h => List.length_pos_iff.mpr (hr r h)
  have h0 : rs.length = c.args := by
    rw [← List.length_map (f := List.length) (as := rs)]
    generalize rs.map List.length = l at hf
    unfold Circ.Fits at hf
    split at hf <;> first | rfl | exact hf.elim
  cases c <;> simp only [Circ.args] at h0
  all_goals first
    | (obtain ⟨a, rfl⟩ := List.length_eq_one_iff.mp h0)
    | (obtain ⟨a, b, rfl⟩ := List.length_eq_two.mp h0)
    | (obtain ⟨a, b, c, rfl⟩ := List.length_eq_three.mp h0)
    | (obtain ⟨a, b, c, d, rfl⟩ := List.length_eq_four.mp h0)
    | skip
  case copy => exact hT (Quiet.copy a b (hr a (by simp)) hf 0 (pos b (by simp)))
  case copyInv => exact Quiet.copyInv a b (hr a (by simp)) hf
  case rshift => exact Quiet.rshift0 a (hr a (by simp))
  case lshift => exact Quiet.lshift a hf
  case add => exact hT (Quiet.add a b c (hr a (by simp)) hf.1 hf.2)
  case addInv => exact Quiet.addInv a b c (hr a (by simp)) hf.1 hf.2
  case addMod => exact hT (Quiet.addMod a b c (hr a (by simp)) hf.1 hf.2)
  case addModInv => exact Quiet.addModInv a b c (hr a (by simp)) hf.1 hf.2
  case timesMod => exact hT (Quiet.timesMod a b c d (hr b (by simp)) (hr c (by simp)) hf.1 hf.2)
  case timesModInv => exact Quiet.timesModInv a b c d (hr b (by simp)) (hr c (by simp)) hf.1 hf.2
  case squareMod => exact hT (Quiet.squareMod a b c (hr b (by simp)) hf.1 hf.2)
  case squareModInv => exact Quiet.squareModInv a b c (hr b (by simp)) hf.1 hf.2
  case expMod =>
    obtain ⟨a, b, c, d, e, rfl⟩ := length_five h0
    exact hT (Quiet.expMod a b c d e (hr b (by simp)) (hr c (by simp)) hf.1 hf.2.1 hf.2.2)
  case expModInv =>
    obtain ⟨a, b, c, d, e, rfl⟩ := length_five h0
    exact Quiet.expModInv a b c d e (hr b (by simp)) (hr c (by simp)) hf.1 hf.2.1 hf.2.2

theorem under_on {ang : Rot → ℝ} {S : Set Asg} {α : Type} : (crs : List Reg) → (m : M (NB crs.length) α) → {b : LocalBuilder} → {a : α} → {L : List ℕ} →
    {U : Asg → Wave} → {T : Set (Option ℕ)} → (∀ c ∈ crs, c ≠ []) → DoesOn ang S m (stack crs b) a L U T → DoesOn ang S (under crs m) b (a, crs) L U T
  | [], m, b, a, L, U, T, _, h => by
    obtain ⟨s', h1, h2⟩ := h
    refine ⟨s', ?_, h2⟩
    exact bind_ok (β := LocalBuilder) (x := m) (f := fun a => pure (a, [])) h1
  | c :: cs, m, b, a, L, U, T, hc, h => by
    have h1 := DoesOn.conditioned (β := NB cs.length) (cs := cs) (cr := c) (m := m) (s := stack cs b)
      (ctl_stack cs b fun d hd => hc d (by simp [hd])) (hc c (by simp)) h
    obtain ⟨s', h2, h3⟩ := under_on cs _ (fun d hd => hc d (by simp [hd])) h1
    refine ⟨s', ?_, h3⟩
    show (under cs _ >>= _) b = _
    rw [bind_ok h2]
    rfl

theorem circ_under (s : LocalBuilder) (crs : List Reg) (c : Circ) (rs : List Reg) (L : List ℕ) (hc : ∀ c ∈ crs, c ≠ []) (hr : ∀ r ∈ rs, r ≠ [])
    (hf : c.Fits (rs.map List.length)) (ho : Own s (crs.flatten ++ rs.flatten ++ L)) :
    DoesOn rotAngle (Idle crs) (under crs (c.run rs)) s (rs, crs) (crs.flatten ++ rs.flatten ++ L) ket ∅ :=
  under_on crs _ hc (circ_quiet c rs hr hf _ L (ctl_stack crs s hc) (by rw [root_stack]; exact ho))

/-! ## C68 -/

/-- Inside the conditions `crs`, one of which does not hold, no arithmetic circuit changes the state, and the temporaries are clean again. -/
theorem C68_idle (s : LocalBuilder) (crs : List Reg) (c : Circ) (rs : List Reg) (L : List ℕ) (hc : ∀ c ∈ crs, c ≠ []) (hr : ∀ r ∈ rs, r ≠ [])
    (hf : c.Fits (rs.map List.length)) (ho : Own s (crs.flatten ++ rs.flatten ++ L)) :
    ∃ s' seg, under crs (c.run rs) s = .ok (rs, crs) s' ∧ s'.pipeline = s.pipeline ++ seg ∧ Own s' (crs.flatten ++ rs.flatten ++ L) ∧
      ∀ x, Clean s x → (∃ q ∈ crs.flatten, x q = false) → runW rotAngle seg (ket x) = ket x ∧ Clean s' x := by
  obtain ⟨s', h1, -, h2, -, -, seg, h3, -, -, h4⟩ := circ_under s crs c rs L hc hr hf ho
  refine ⟨s', seg, h1, h3, h2, fun x hx hq => ?_⟩
  obtain ⟨q, hq, hx0⟩ := hq
  obtain ⟨k1, k2⟩ := h4 x (fun h => by rw [h q hq] at hx0; cases hx0) hx
  exact ⟨k1, on_iff.mp k2 x (by simp [ket])⟩

/-! ## C69 -/

/-- With registers of fitting sizes every arithmetic circuit succeeds at once or inside any conditions. It gives back its registers and the
conditions, adds only unitary elements fit for execution, on allocated qubits, and measures nothing. -/
theorem C69_runs (s : LocalBuilder) (crs : List Reg) (c : Circ) (rs : List Reg) (L : List ℕ) (hc : ∀ c ∈ crs, c ≠ []) (hr : ∀ r ∈ rs, r ≠ [])
    (hf : c.Fits (rs.map List.length)) (ho : Own s (crs.flatten ++ rs.flatten ++ L)) :
    ∃ s' seg, under crs (c.run rs) s = .ok (rs, crs) s' ∧ s'.pipeline = s.pipeline ++ seg ∧ Own s' (crs.flatten ++ rs.flatten ++ L) ∧
      (∀ e ∈ seg, SegU s'.n e) ∧ s.n ≤ s'.n ∧ s'.measurements = s.measurements := by
  obtain ⟨s', h1, -, h2, h5, h6, seg, h3, h7, -, -⟩ := circ_under s crs c rs L hc hr hf ho
  exact ⟨s', seg, h1, h3, h2, h7, h5, h6⟩

theorem invertFn_err {β : Type} [Recursive β] {f : List Reg → M LocalBuilder (List Reg)} {rs : List Reg} (hr : ∀ r ∈ rs, r ≠ [])
    (h : ∀ (rs' : List Reg) (b : LocalBuilder), rs'.map List.length = rs.map List.length → f rs' b = .error .error b) (s : β) : invertFn f rs s = .error .error s := by
  have hpos : ∀ k ∈ rs.map List.length, 0 < k := by
    intro k hk
    obtain ⟨r, h1, rfl⟩ := List.mem_map.mp hk
    exact List.length_pos_iff.mpr (hr r h1)
  have hb : buildSub (rs.map List.length) f = .error .error := by
    unfold buildSub
    rw [bind_ok (registers_run (rs.map List.length) hpos LocalBuilder.default), h _ _ (ranges_map_length _ _)]
  unfold invertFn
  rw [hb]
  rfl

section
variable {β : Type} [Recursive β] (s : β)

theorem copy_err (a b : Reg) (h : a.length ≠ b.length) : Arith.copy [a, b] s = .error .error s := by
  rw [Arith.copy, if_pos h]; rfl

theorem add_err (c a b : Reg) (h : ¬ (a.length = c.length ∧ b.length = c.length + 1)) : Arith.add [c, a, b] s = .error .error s := by
  show Arith.addF (c.length + 1) [c, a, b] s = _
  rw [Arith.addF, if_neg (by omega), if_neg (by omega)]; rfl

theorem addMod_err (a b m : Reg) (h : ¬ (m.length = a.length ∧ b.length = a.length + 1)) : Arith.addMod [a, b, m] s = .error .error s := by
  rw [Arith.addMod]
  by_cases h1 : a.length ≠ m.length
  · rw [if_pos h1]; rfl
  · rw [if_neg h1, if_pos (by tauto)]; rfl

theorem timesMod_err (a b m p : Reg) (h : ¬ (a.length = m.length + 1 ∧ p.length = m.length + 1)) : Arith.timesMod [a, b, m, p] s = .error .error s := by
  rw [Arith.timesMod]
  by_cases h1 : a.length ≠ m.length + 1
  · rw [if_pos h1]; rfl
  · rw [if_neg h1, if_pos (by tauto)]; rfl

theorem squareMod_err (a m q : Reg) (h : ¬ (a.length = m.length + 1 ∧ q.length = m.length + 1)) : Arith.squareMod [a, m, q] s = .error .error s := by
  rw [Arith.squareMod]
  by_cases h1 : a.length ≠ m.length + 1
  · rw [if_pos h1]; rfl
  · rw [if_neg h1, if_pos (by tauto)]; rfl

theorem expMod_err (a b m p e : Reg) (h : ¬ (a.length = m.length + 1 ∧ p.length = m.length + 1 ∧ e.length = m.length + 1)) :
    Arith.expMod [a, b, m, p, e] s = .error .error s := by
  show Arith.expModF (b.length + 1) [a, b, m, p, e] s = _
  rw [Arith.expModF]
  by_cases h1 : a.length ≠ m.length + 1
  · rw [if_pos h1]; rfl
  · rw [if_neg h1]
    by_cases h2 : p.length ≠ m.length + 1
    · rw [if_pos h2]; rfl
    · rw [if_neg h2, if_pos (by tauto)]; rfl

theorem map_two {l : List Reg} {a b : Reg} (h : l.map List.length = [a, b].map List.length) : ∃ c d, l = [c, d] ∧ c.length = a.length ∧ d.length = b.length := by
  obtain ⟨c, d, rfl⟩ := List.length_eq_two.mp (by simpa using congrArg List.length h)
  simp only [List.map_cons, List.map_nil, List.cons.injEq, and_true] at h
  exact ⟨c, d, rfl, h⟩

theorem map_three {l : List Reg} {a b c : Reg} (h : l.map List.length = [a, b, c].map List.length) :
    ∃ d e f, l = [d, e, f] ∧ d.length = a.length ∧ e.length = b.length ∧ f.length = c.length := by
  obtain ⟨d, e, f, rfl⟩ := List.length_eq_three.mp (by simpa using congrArg List.length h)
  simp only [List.map_cons, List.map_nil, List.cons.injEq, and_true] at h
  exact ⟨d, e, f, rfl, h⟩

theorem map_four {l : List Reg} {a b c d : Reg} (h : l.map List.length = [a, b, c, d].map List.length) :
    ∃ e f g i, l = [e, f, g, i] ∧ e.length = a.length ∧ f.length = b.length ∧ g.length = c.length ∧ i.length = d.length := by
  have h0 : l.length = 4 := by simpa using congrArg List.length h
  match l, h0 with
  | [e, f, g, i], _ =>
    simp only [List.map_cons, List.map_nil, List.cons.injEq, and_true] at h
    exact ⟨e, f, g, i, rfl, h⟩

/-- Other sizes are an error, and nothing happens (`lshift` of one qubit apart, see C47). -/
theorem circ_err (c : Circ) (rs : List Reg) (hl : c ≠ .lshift) (h0 : rs.length = c.args) (hr : ∀ r ∈ rs, r ≠ [])
    (hf : ¬ c.Fits (rs.map List.length)) : c.run rs s = .error .error s := by
  cases c <;> simp only [Circ.args] at h0
  all_goals first
    | (obtain ⟨a, rfl⟩ := List.length_eq_one_iff.mp h0)
    | (obtain ⟨a, b, rfl⟩ := List.length_eq_two.mp h0)
    | (obtain ⟨a, b, c, rfl⟩ := List.length_eq_three.mp h0)
    | (obtain ⟨a, b, c, d, rfl⟩ := List.length_eq_four.mp h0)
    | skip
  case copy => exact copy_err s a b hf
  case copyInv =>
    refine invertFn_err hr (fun rs' b' h => ?_) s
    obtain ⟨d, e, rfl, h1, h2⟩ := map_two h
    exact copy_err b' d e (by rw [h1, h2]; exact hf)
  case rshift => exact absurd trivial hf
  case lshift => exact absurd rfl hl
  case add => exact add_err s a b c hf
  case addInv =>
    refine invertFn_err hr (fun rs' b' h => ?_) s
    obtain ⟨d, e, f, rfl, h1, h2, h3⟩ := map_three h
    exact add_err b' d e f (by rw [h1, h2, h3]; exact hf)
  case addMod => exact addMod_err s a b c hf
  case addModInv =>
    refine invertFn_err hr (fun rs' b' h => ?_) s
    obtain ⟨d, e, f, rfl, h1, h2, h3⟩ := map_three h
    exact addMod_err b' d e f (by rw [h1, h2, h3]; exact hf)
  case timesMod => exact timesMod_err s a b c d hf
  case timesModInv =>
    refine invertFn_err hr (fun rs' b' h => ?_) s
    obtain ⟨e, f, g, i, rfl, h1, h2, h3, h4⟩ := map_four h
    exact timesMod_err b' e f g i (by rw [h1, h3, h4]; exact hf)
  case squareMod => exact squareMod_err s a b c hf
  case squareModInv =>
    refine invertFn_err hr (fun rs' b' h => ?_) s
    obtain ⟨d, e, f, rfl, h1, h2, h3⟩ := map_three h
    exact squareMod_err b' d e f (by rw [h1, h2, h3]; exact hf)
  case expMod =>
    obtain ⟨a, b, c, d, e, rfl⟩ := length_five h0
    exact expMod_err s a b c d e hf
  case expModInv =>
    obtain ⟨a, b, c, d, e, rfl⟩ := length_five h0
    refine invertFn_err hr (fun rs' b' h => ?_) s
    obtain ⟨f, g, i, j, k, rfl⟩ := length_five (by simpa using congrArg List.length h)
    simp only [List.map_cons, List.map_nil, List.cons.injEq, and_true] at h
    obtain ⟨h1, h2, h3, h4, h5⟩ := h
    exact expMod_err b' f g i j k (by rw [h1, h3, h4, h5]; exact hf)

end

/-- Registers of other sizes are an error in every builder, and nothing happens (`lshift` of one qubit apart, see C47). -/
theorem C69_sizes {k : ℕ} (s : NB k) (c : Circ) (rs : List Reg) (hl : c ≠ .lshift) (ha : rs.length = c.args) (hr : ∀ r ∈ rs, r ≠ [])
    (hf : ¬ c.Fits (rs.map List.length)) : c.run rs s = .error .error s := circ_err s c rs hl ha hr hf

/-! ## examples -/

/-- ten allocated qubits, one of them in the pool -/
def tenQubits : LocalBuilder := ⟨[], 10, [[9]], 0⟩

theorem tenQubits_own : Own tenQubits ([[7], [8]].flatten ++ [[0, 1], [2, 3], [4], [5, 6]].flatten ++ []) := ⟨by simp [tenQubits], by decide, by decide⟩

/-- `times_mod` on a number `b` of two qubits inside two nested conditions -/
example : ∃ s' seg, under [[7], [8]] (Circ.timesMod.run [[0, 1], [2, 3], [4], [5, 6]]) tenQubits = .ok ([[0, 1], [2, 3], [4], [5, 6]], [[7], [8]]) s' ∧
    s'.pipeline = tenQubits.pipeline ++ seg ∧ runW rotAngle seg (ket (ones [0, 3, 4, 5, 8])) = ket (ones [0, 3, 4, 5, 8]) := by
  obtain ⟨s', seg, h1, h2, -, h3⟩ := C68_idle tenQubits [[7], [8]] .timesMod [[0, 1], [2, 3], [4], [5, 6]] [] (by simp) (by simp) ⟨rfl, rfl⟩ tenQubits_own
  refine ⟨s', seg, h1, h2, (h3 _ ?_ ⟨7, by simp, rfl⟩).1⟩
  intro q hq
  refine decide_eq_false fun hm => ?_
  simp [tenQubits] at hq hm
  omega

example := C69_runs tenQubits [] .timesMod [[0, 1], [2, 3], [4], [5, 6]] [7, 8] (by simp) (by simp) ⟨rfl, rfl⟩ ⟨by simp [tenQubits], by decide, by decide⟩
example := C69_runs tenQubits [[8]] .expMod [[0, 1], [2], [3], [4, 5], [6, 7]] [] (by simp) (by simp) ⟨rfl, rfl, rfl⟩ ⟨by simp [tenQubits], by decide, by decide⟩
example := C69_runs tenQubits [[8]] .expModInv [[0, 1], [2], [3], [4, 5], [6, 7]] [] (by simp) (by simp) ⟨rfl, rfl, rfl⟩ ⟨by simp [tenQubits], by decide, by decide⟩
example := C69_sizes (k := 1) ⟨tenQubits, some [8]⟩ .timesModInv [[0, 1], [2, 3], [4], [5]] (by simp) rfl (by simp) (by simp [Circ.Fits])

end Verif.Props
