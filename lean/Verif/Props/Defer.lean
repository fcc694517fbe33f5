import Verif.Proofs.Defer
import Verif.Props.Teleport

/-!
# Property C131: deferred measurement

A measurement can be put off until after programs that leave the values of the measured register as they are.
-/

namespace Verif.Props
open Complex

/-- C131: a structured program that leaves its `k`-th register as it is (`Prog.Spares`: reads it, or changes phases) takes every basis state to a state where all basis states have the values they had in this register,
also inside conditions. -/
theorem C131_reads (p : Prog) (k : ℕ) (hs : p.Spares k) (inside : Bool) (rs : List Reg) (hp : p.Takes inside rs) (hn : rs.flatten.Nodup) (x : Asg) :
    ∀ y ∈ (p.wave inside rs x).support, ∀ q ∈ rs.getD k [], y q = x q := fun y hy => on_iff.mp (p.leaves k hs inside rs hp hn x) y hy

theorem run_proj (rs : List Reg) (hn : rs.flatten.Nodup) (i m : ℕ) (ps : List Prog) (hp : ∀ p ∈ ps, p.Takes false rs ∧ p.Spares i) (post : List Act) (ms : List ℕ) (ψ : Wave) :
    actsW rs (ps.map .run ++ .measure i :: post) (m :: ms) ψ = actsW rs (.measure i :: (ps.map .run ++ post)) (m :: ms) ψ := by
  induction ps generalizing ψ with
  | nil => rfl
  | cons p ps ih =>
    rw [List.map_cons, List.cons_append, acts_run, ih (fun q hq => hp q (by simp [hq])), acts_measure, acts_measure, List.cons_append, acts_run]
    have h := hp p (by simp)
    rw [(p.leaves i h.2 false rs h.1 hn).proj]

theorem run_norms (rs : List Reg) (hn : rs.flatten.Nodup) (i m : ℕ) (ps : List Prog) (hp : ∀ p ∈ ps, p.Takes false rs ∧ p.Spares i) (post : List Act) (ms : List ℕ) (ψ : Wave) :
    actsP rs (ps.map .run ++ .measure i :: post) (m :: ms) ψ = actsP rs (.measure i :: (ps.map .run ++ post)) (m :: ms) ψ := by
  induction ps generalizing ψ with
  | nil => rfl
  | cons p ps ih =>
    have h := hp p (by simp)
    rw [List.map_cons, List.cons_append, actsP, ih (fun q hq => hp q (by simp [hq])), actsP, actsP, List.cons_append, actsP, lift_eq,
      (p.leaves i h.2 false rs h.1 hn).proj]
    have e : ∀ χ, normW (lift (p.wave false rs) χ) = normW χ := fun χ => by rw [← lift_eq]; exact C107_unitary p rs h.1 hn χ
    rw [e, e]

theorem defer_acts (rs : List Reg) (hn : rs.flatten.Nodup) (i : ℕ) (ps : List Prog) (hp : ∀ p ∈ ps, p.Takes false rs ∧ p.Spares i) (pre post : List Act) (ms : List ℕ) (ψ : Wave)
    (hm : ms.length = measures (pre ++ .measure i :: (ps.map .run ++ post))) :
    actsW rs (pre ++ (ps.map .run ++ .measure i :: post)) ms ψ = actsW rs (pre ++ .measure i :: (ps.map .run ++ post)) ms ψ ∧
      actsP rs (pre ++ (ps.map .run ++ .measure i :: post)) ms ψ = actsP rs (pre ++ .measure i :: (ps.map .run ++ post)) ms ψ := by
  induction pre generalizing ms ψ with
  | nil =>
    match ms, hm with
    | m :: ms, _ => exact ⟨run_proj rs hn i m ps hp post ms ψ, run_norms rs hn i m ps hp post ms ψ⟩
  | cons a pre ih =>
    cases a with
    | run p =>
      simp only [List.cons_append, measures] at hm
      simp only [List.cons_append, actsW, actsP]
      exact ih ms _ hm
    | measure j =>
      match ms, hm with
      | m :: ms, hm =>
        simp only [List.cons_append, measures, List.length_cons, Nat.add_right_cancel_iff] at hm
        simp only [List.cons_append, actsW, actsP]
        have := ih ms (projW (rs.getD j []) m ψ) hm
        exact ⟨this.1, by rw [this.2]⟩

theorem measures_append (as bs : List Act) : measures (as ++ bs) = measures as + measures bs := by
  induction as with
  | nil => simp [measures]
  | cons a as ih => cases a <;> simp only [List.cons_append, measures, ih] <;> omega

theorem defer_measures (i : ℕ) (ps : List Prog) (pre post : List Act) :
    measures (pre ++ (ps.map .run ++ .measure i :: post)) = measures (pre ++ .measure i :: (ps.map .run ++ post)) := by
  simp only [measures_append, measures]
  omega

theorem blocks_apart (sizes : List ℕ) : (blocks 0 sizes).flatten.Nodup := by
  rw [blocks_eq, ranges_flatten]; exact List.nodup_range'

theorem defer_takes {rs : List Reg} {i : ℕ} {ps : List Prog} {pre post : List Act} (hT : ∀ a ∈ pre ++ .measure i :: (ps.map .run ++ post), a.Takes rs) :
    ∀ a ∈ pre ++ (ps.map .run ++ .measure i :: post), a.Takes rs := fun a ha => hT a (by
  simp only [List.mem_append, List.mem_cons] at ha ⊢
  tauto)

/-- C131: a measurement of the `i`-th register, followed by programs `ps` that leave this register as it is, can be put off until after them, whatever comes before and afterwards, measurements
included. Both main programs run and hand out the same registers and handles, and for all initial values every sequence of outcomes has the same probability. -/
theorem C131_deferred {sizes : List ℕ} (hpos : ∀ k ∈ sizes, 0 < k) (i : ℕ) (ps : List Prog) (pre post : List Act) (hs : ∀ p ∈ ps, p.Spares i)
    (hT : ∀ a ∈ pre ++ .measure i :: (ps.map .run ++ post), a.Takes (blocks 0 sizes)) :
    ∃ out S S', mainProg sizes (pre ++ .measure i :: (ps.map .run ++ post)) LocalBuilder.default = .ok out S ∧
      mainProg sizes (pre ++ (ps.map .run ++ .measure i :: post)) LocalBuilder.default = .ok out S' ∧
      ∀ it : List (Reg × ℕ), (∀ e ∈ it, e.1 ∈ blocks 0 sizes) → ∀ ms : List ℕ, ms.length = out.2.length → outcomeProb S it ms = outcomeProb S' it ms := by
  have hT' := defer_takes hT
  obtain ⟨S, h⟩ := C106_runs sizes hpos _ hT
  obtain ⟨S', h'⟩ := C106_runs sizes hpos _ hT'
  rw [defer_measures] at h'
  refine ⟨_, S, S', h, h', fun it hi ms hm => ?_⟩
  rw [List.length_range] at hm
  rw [C106_born hpos hT h it hi ms hm, C106_born hpos hT' h' it hi ms (by rw [hm, defer_measures]),
    (defer_acts _ (blocks_apart sizes) i ps (fun p hp => ⟨hT (.run p) (by simp [hp]), hs p hp⟩) pre post ms _ hm).1]

/-- C131: whatever numbers in (0,1) are drawn in the two calculations, both succeed. If they report the same outcomes, then they report the same probabilities, and the states
returned are the same. -/
theorem C131_state {sizes : List ℕ} (hpos : ∀ k ∈ sizes, 0 < k) (i : ℕ) (ps : List Prog) (pre post : List Act) (hs : ∀ p ∈ ps, p.Spares i)
    (hT : ∀ a ∈ pre ++ .measure i :: (ps.map .run ++ post), a.Takes (blocks 0 sizes)) {out out' : List Reg × List ℕ} {S S' : LocalBuilder}
    (h : mainProg sizes (pre ++ .measure i :: (ps.map .run ++ post)) LocalBuilder.default = .ok out S)
    (h' : mainProg sizes (pre ++ (ps.map .run ++ .measure i :: post)) LocalBuilder.default = .ok out' S')
    (it : List (Reg × ℕ)) (hi : ∀ e ∈ it, e.1 ∈ blocks 0 sizes) (rnds rnds' : ℕ → ℝ) (hr : ∀ k, 0 < rnds k ∧ rnds k < 1) (hr' : ∀ k, 0 < rnds' k ∧ rnds' k < 1) :
    ∃ v l v' l' χ χ', S.calculateStateWithInit it rnds = some (v, l) ∧ S'.calculateStateWithInit it rnds' = some (v', l') ∧ l.length = l'.length ∧
      Rep S.n v χ ∧ Rep S'.n v' χ' ∧
      ((∀ j < l.length, (getMeasurement l j).map Prod.fst = (getMeasurement l' j).map Prod.fst) →
        χ = χ' ∧ ∀ j < l.length, getMeasurement l j = getMeasurement l' j) := by
  have hT' := defer_takes hT
  obtain ⟨v, l, ms, a1, a2, a3, a4, a5, a6⟩ := C106_state hpos hT h it hi rnds hr
  obtain ⟨v', l', ms', b1, b2, b3, b4, b5, b6⟩ := C106_state hpos hT' h' it hi rnds' hr'
  rw [defer_measures] at b2 b3
  refine ⟨v, l, v', l', _, _, a1, b1, by rw [a2, b2], a6, b6, fun he => ?_⟩
  have hms : ms = ms' := List.ext_getElem (by rw [a3, b3]) fun j h1 h2 => by
    obtain ⟨pr, -, e1⟩ := a4 j h1
    obtain ⟨pr', -, e2⟩ := b4 j h2
    have := he j (by omega)
    rw [e1, e2] at this
    simpa using this
  subst hms
  obtain ⟨d1, d2⟩ := defer_acts _ (blocks_apart sizes) i ps (fun p hp => ⟨hT (.run p) (by simp [hp]), hs p hp⟩) pre post ms (ket (initAsg it)) a3
  refine ⟨by rw [d1], fun j hj => ?_⟩
  obtain ⟨pr, p1, e1⟩ := a4 j (by omega)
  obtain ⟨pr', p2, e2⟩ := b4 j (by omega)
  rw [d2, p1] at p2
  rw [e1, e2, Option.some.inj p2]

theorem runs_norm (rs : List Reg) (hn : rs.flatten.Nodup) (ps : List Prog) (hp : ∀ p ∈ ps, p.Takes false rs) (ms : List ℕ) (ψ : Wave) :
    normW (actsW rs (ps.map .run) ms ψ) = normW ψ := by
  induction ps generalizing ψ with
  | nil => rfl
  | cons p ps ih =>
    rw [List.map_cons, acts_run, ih (fun q hq => hp q (by simp [hq])), ← lift_eq]
    exact C107_unitary p rs (hp p (by simp)) hn ψ

theorem unread_acts (rs : List Reg) (hn : rs.flatten.Nodup) (ps : List Prog) (hp : ∀ p ∈ ps, p.Takes false rs) (js : List ℕ) (hs : ∀ p ∈ ps, ∀ j ∈ js, p.Spares j) (pre : List Act)
    (ms : List ℕ) (ψ : Wave) (hm : ms.length = measures (pre ++ js.map .measure)) :
    normW (actsW rs (pre ++ (ps.map .run ++ js.map .measure)) ms ψ) = normW (actsW rs (pre ++ js.map .measure) ms ψ) := by
  induction pre generalizing ms ψ with
  | nil =>
    induction js generalizing ms ψ with
    | nil =>
      simp only [List.map_nil, List.append_nil, List.nil_append, actsW]
      exact runs_norm rs hn ps hp ms ψ
    | cons j js ih =>
      match ms, hm with
      | m :: ms, hm =>
        simp only [List.nil_append, List.map_cons, measures, List.length_cons, Nat.add_right_cancel_iff] at hm
        rw [List.nil_append, List.map_cons, run_proj rs hn j m ps (fun p h => ⟨hp p h, hs p h j (by simp)⟩), acts_measure, List.nil_append, acts_measure]
        exact ih (fun p h i hi => hs p h i (by simp [hi])) ms _ hm
  | cons a pre ih =>
    cases a with
    | run p =>
      simp only [List.cons_append, measures] at hm
      simp only [List.cons_append, actsW]
      exact ih ms _ hm
    | measure j =>
      match ms, hm with
      | m :: ms, hm =>
        simp only [List.cons_append, measures, List.length_cons, Nat.add_right_cancel_iff] at hm
        simp only [List.cons_append, actsW]
        exact ih ms _ hm

/-- C131: programs `ps` that leave the registers `js` as they are cannot be noticed by measuring these registers: whatever comes before, the outcomes have the
probabilities they have without `ps`. -/
theorem C131_unnoticed {sizes : List ℕ} (hpos : ∀ k ∈ sizes, 0 < k) (ps : List Prog) (hp : ∀ p ∈ ps, p.Takes false (blocks 0 sizes)) (js : List ℕ)
    (hs : ∀ p ∈ ps, ∀ j ∈ js, p.Spares j) (pre : List Act) (hT : ∀ a ∈ pre ++ js.map .measure, a.Takes (blocks 0 sizes)) :
    ∃ out S S', mainProg sizes (pre ++ js.map .measure) LocalBuilder.default = .ok out S ∧
      mainProg sizes (pre ++ (ps.map .run ++ js.map .measure)) LocalBuilder.default = .ok out S' ∧
      ∀ it : List (Reg × ℕ), (∀ e ∈ it, e.1 ∈ blocks 0 sizes) → ∀ ms : List ℕ, ms.length = out.2.length → outcomeProb S it ms = outcomeProb S' it ms := by
  have hT' : ∀ a ∈ pre ++ (ps.map .run ++ js.map .measure), a.Takes (blocks 0 sizes) := by
    intro a ha
    rcases List.mem_append.mp ha with ha | ha
    · exact hT a (List.mem_append_left _ ha)
    · rcases List.mem_append.mp ha with ha | ha
      · obtain ⟨p, h, rfl⟩ := List.mem_map.mp ha
        exact hp p h
      · exact hT a (List.mem_append_right _ ha)
  have hme : measures (pre ++ (ps.map .run ++ js.map .measure)) = measures (pre ++ js.map .measure) := by
    have : measures (ps.map Act.run) = 0 := by
      clear hs hp hT'
      induction ps with
      | nil => rfl
      | cons p ps ih => rw [List.map_cons, measures, ih]
    rw [measures_append, measures_append, measures_append, this, zero_add]
  obtain ⟨S, h⟩ := C106_runs sizes hpos _ hT
  obtain ⟨S', h'⟩ := C106_runs sizes hpos _ hT'
  rw [hme] at h'
  refine ⟨_, S, S', h, h', fun it hi ms hm => ?_⟩
  rw [List.length_range] at hm
  rw [C106_born hpos hT h it hi ms hm, C106_born hpos hT' h' it hi ms (by rw [hm, hme]), unread_acts _ (blocks_apart sizes) ps hp js hs pre ms _ hm]

/-- C131: without the hypothesis this is false. The program H changes its register: measuring before it gives 1 with probability 0, measuring after it gives 1 with positive probability. -/
theorem C131_needed : ∃ out S S', mainProg [1] [.measure 0, .run (.call (.named .h))] LocalBuilder.default = .ok out S ∧
    mainProg [1] [.run (.call (.named .h)), .measure 0] LocalBuilder.default = .ok out S' ∧ outcomeProb S [] [1] = 0 ∧ 0 < outcomeProb S' [] [1] := by
  have hh : (Prog.call (.named .h)).Takes false (blocks 0 [1]) := by simp [Prog.Takes, Method.Takes, blocks]
  have h0 : (0 : ℕ) < (blocks 0 [1]).length := by simp [blocks]
  have hT : ∀ a ∈ [Act.measure 0, .run (.call (.named .h))], a.Takes (blocks 0 [1]) := by
    intro a ha
    simp only [List.mem_cons, List.not_mem_nil, or_false] at ha
    rcases ha with rfl | rfl
    · exact h0
    · exact hh
  have hT' : ∀ a ∈ [Act.run (.call (.named .h)), .measure 0], a.Takes (blocks 0 [1]) := fun a ha => hT a (by simpa [or_comm] using ha)
  obtain ⟨S, h⟩ := C106_runs [1] (by simp) _ hT
  obtain ⟨S', h'⟩ := C106_runs [1] (by simp) _ hT'
  refine ⟨_, S, S', h, h', ?_, ?_⟩
  · rw [C106_born (by simp) hT h [] (by simp) [1] rfl, acts_measure, ← projL_apply, projL_ket, if_neg (by simp [blocks, initAsg, valQ]), acts_run, map_zero]
    simp [actsW, normW_zero]
  · rw [C106_born (by simp) hT' h' [] (by simp) [1] rfl, acts_run, acts_measure, lift_ket, ENNReal.ofReal_pos]
    refine lt_of_le_of_ne (normW_nonneg _) fun hc => ?_
    have h1 := normW_eq_zero hc.symm
    simp only [actsW] at h1
    have h2 := DFunLike.congr_fun h1 (putVal [0] 1 (initAsg []))
    have e : (Prog.call (.named .h)).wave false (blocks 0 [1]) (initAsg []) = eachW (Named.mat .h) [0] (ket (initAsg [])) := by simp [Prog.wave, Method.wave, blocks]
    have hv : valQ [0] (putVal [0] 1 (initAsg [])) = 1 := valQ_putVal _ (by simp) _ (by simp) _
    have hne : putVal [0] 0 (initAsg []) ≠ putVal [0] 1 (initAsg []) := fun hx => by
      have := congrArg (valQ [0]) hx
      rw [hv, valQ_putVal _ (by simp) _ (by simp) _] at this
      omega
    have hq : (blocks 0 [1]).getD 0 [] = [0] := rfl
    have hd : dot 1 0 1 = 0 := by decide
    rw [e, hq, projW_apply, if_pos hv, hadamards _ (by simp)] at h2
    simp [Finset.sum_range_succ, ket, Finsupp.single_apply, hne, initAsg, valQ] at h2

theorem fix_spares (q : Prog) (k : ℕ) (hk : k < 2) : (teleFix q).Spares k := by
  have h : ∀ (p : Prog) (ls : Lines), ls.Spares k → (Lines.plain p [[(2, none)]] ls).Spares k := fun p ls hl => by
    simp only [Lines.Spares]
    refine ⟨fun j g hg hs => ?_, hl⟩
    obtain ⟨s, h1, h2⟩ := hs
    have : g = [(2, none)] := by
      have := List.mem_of_getElem? hg
      simpa using this
    subst this
    obtain rfl : s = (2, none) := by simpa using h1
    simp only at h2
    omega
  have h2 : ∀ (i : ℕ) (ls : Lines), i < 2 → ls.Spares k → (Lines.plain (.call .copy) [[(i, none)], [(2, none)]] ls).Spares k := fun i ls hi hl => by
    simp only [Lines.Spares]
    refine ⟨fun j g hg hs => ?_, hl⟩
    match j, hg with
    | 0, _ => rfl
    | 1, hg =>
      obtain ⟨s, h1, h2⟩ := hs
      obtain rfl : [(2, none)] = g := by simpa using hg
      obtain rfl : s = (2, none) := by simpa using h1
      simp only at h2
      omega
  unfold teleFix
  simp only [Prog.Spares]
  exact h2 1 _ (by norm_num) (h _ _ (h2 0 _ (by norm_num) (h _ _ (h _ _ (by simp only [Lines.Spares])))))

/-- example: in the teleportation program (C129) the second measurement of the sender can be put off until after the corrections of the receiver and whatever the receiver does with the
state -/
example {n : ℕ} (hn : 0 < n) {p q : Prog} (hp : p.Takes false [List.range n]) (hq : q.Takes false [List.range n]) :
    ∃ out S S', mainProg [n, n, n] (teleActs p q) LocalBuilder.default = .ok out S ∧
      mainProg [n, n, n] [.run (telePrep p), .measure 0, .run (teleFix q), .measure 1] LocalBuilder.default = .ok out S' ∧
      ∀ it : List (Reg × ℕ), (∀ e ∈ it, e.1 ∈ blocks 0 [n, n, n]) → ∀ ms : List ℕ, ms.length = out.2.length → outcomeProb S it ms = outcomeProb S' it ms :=
  C131_deferred (sizes := [n, n, n]) (by simp [hn]) 1 [teleFix q] [.run (telePrep p), .measure 0] [] (by simp [fix_spares]) (teleActs_takes hn hp hq)

/-- example: nothing the receiver does can be noticed by the sender, who measures the first two registers -/
example {n : ℕ} (hn : 0 < n) {p q : Prog} (hp : p.Takes false [List.range n]) (hq : q.Takes false [List.range n]) :
    ∃ out S S', mainProg [n, n, n] [.run (telePrep p), .measure 0, .measure 1] LocalBuilder.default = .ok out S ∧
      mainProg [n, n, n] [.run (telePrep p), .run (teleFix q), .measure 0, .measure 1] LocalBuilder.default = .ok out S' ∧
      ∀ it : List (Reg × ℕ), (∀ e ∈ it, e.1 ∈ blocks 0 [n, n, n]) → ∀ ms : List ℕ, ms.length = out.2.length → outcomeProb S it ms = outcomeProb S' it ms :=
  C131_unnoticed (sizes := [n, n, n]) (by simp [hn]) [teleFix q] (by rw [blocks_tele]; simpa using fix_takes hn hq) [0, 1] (by simp [fix_spares]) [.run (telePrep p)]
    fun a ha => teleActs_takes hn hp hq a (by
      simp only [List.cons_append, List.nil_append, List.map_cons, List.map_nil, List.mem_cons, List.not_mem_nil, or_false, teleActs] at ha ⊢
      tauto)

/-- example: a `cnot`, `T` on the control, and a conditioned H all leave the first register as it is -/
example : (Prog.seq (.call .cnot) (.seq (.prog (.plain (.call (.named .t)) [[(0, none)]] .nil)) (.cond (.call (.named .h))))).Spares 0 := by
  simp only [Prog.Spares, Method.Spares, Lines.Spares]
  refine ⟨trivial, ⟨fun j g hj _ => ⟨?_, by simp⟩, trivial⟩, trivial⟩
  obtain ⟨h, -⟩ := List.getElem?_eq_some_iff.mp hj
  simpa using h

end Verif.Props
