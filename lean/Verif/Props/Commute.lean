import Verif.Proofs.Commute
import Verif.Props.Clone

/-!
# Property C133: independent programs can be exchanged

Two structured programs (C105) that share no registers, except for registers that both leave as they are, can be run in either order.
-/

namespace Verif.Props
open Complex

/-- C133: the registers that the text of a program does not name keep their values and have no influence: flipping their qubits before is the same as flipping them afterwards. -/
theorem C133_uses (p : Prog) (inside : Bool) (rs : List Reg) (hp : p.Takes inside rs) (hn : rs.flatten.Nodup) (k : ℕ) (hk : ¬ p.Uses k) (x : Asg) :
    (∀ y ∈ (p.wave inside rs x).support, ∀ q ∈ rs.getD k [], y q = x q) ∧
      ∀ c : Reg, (∀ q ∈ c, q ∈ rs.getD k []) → p.wave inside rs (flipAll c x) = Finsupp.linearCombination ℂ (fun y => ket (flipAll c y)) (p.wave inside rs x) := by
  have hq : ∀ q ∈ rs.getD k [], q ∉ usedQ p.Uses rs := fun q hq ⟨j, h1, h2⟩ => hk (by rwa [mem_unique hn hq h2])
  exact ⟨fun y hy q h => on_iff.mp ((p.localOn inside rs hp hn).keeps x) y hy q (hq q h), fun c hc => (p.localOn inside rs hp hn).blind c (fun q h => hq q (hc q h)) x⟩

/-- C133: programs that are apart commute as operations on states. -/
theorem C133_waves {p q : Prog} (ha : Apart p q) {rs : List Reg} (hp : p.Takes false rs) (hq : q.Takes false rs) (hn : rs.flatten.Nodup) :
    (Prog.seq p q).wave false rs = (Prog.seq q p).wave false rs := by
  funext x
  have := apart_commute ha hp hq hn (ket x)
  rw [lift_ket, lift_ket] at this
  simp only [Prog.wave, lift_eq]
  exact this.symm

theorem swap_one (rs : List Reg) (hn : rs.flatten.Nodup) {p : Prog} (hp : p.Takes false rs) (qs : List Prog) (hq : ∀ q ∈ qs, q.Takes false rs ∧ Apart p q) (post : List Act) (ms : List ℕ)
    (ψ : Wave) : actsW rs (.run p :: (qs.map .run ++ post)) ms ψ = actsW rs (qs.map .run ++ .run p :: post) ms ψ ∧
      actsP rs (.run p :: (qs.map .run ++ post)) ms ψ = actsP rs (qs.map .run ++ .run p :: post) ms ψ := by
  induction qs generalizing ψ with
  | nil => exact ⟨rfl, rfl⟩
  | cons q qs ih =>
    obtain ⟨h1, h2⟩ := hq q (by simp)
    have h := ih (fun r hr => hq r (by simp [hr])) (lift (q.wave false rs) ψ)
    have hc := apart_commute h2 hp h1 hn ψ
    simp only [List.map_cons, List.cons_append, actsW, actsP, lift_eq] at h ⊢
    rw [← hc]
    exact h

theorem swap_all (rs : List Reg) (hn : rs.flatten.Nodup) (ps qs : List Prog) (hp : ∀ p ∈ ps, p.Takes false rs) (hq : ∀ q ∈ qs, q.Takes false rs) (ha : ∀ p ∈ ps, ∀ q ∈ qs, Apart p q)
    (post : List Act) (ms : List ℕ) (ψ : Wave) :
    actsW rs (ps.map .run ++ (qs.map .run ++ post)) ms ψ = actsW rs (qs.map .run ++ (ps.map .run ++ post)) ms ψ ∧
      actsP rs (ps.map .run ++ (qs.map .run ++ post)) ms ψ = actsP rs (qs.map .run ++ (ps.map .run ++ post)) ms ψ := by
  induction ps generalizing ψ with
  | nil => exact ⟨rfl, rfl⟩
  | cons p ps ih =>
    have h1 := swap_one rs hn (hp p (by simp)) qs (fun q h => ⟨hq q h, ha p (by simp) q h⟩) (ps.map .run ++ post) ms ψ
    have h2 := ih (fun r hr => hp r (by simp [hr])) (fun r hr => ha r (by simp [hr])) (lift (p.wave false rs) ψ)
    simp only [List.map_cons, List.cons_append]
    rw [← h1.1, ← h1.2]
    simp only [actsW, actsP, lift_eq]
    exact h2

theorem swap_acts (rs : List Reg) (hn : rs.flatten.Nodup) (ps qs : List Prog) (hp : ∀ p ∈ ps, p.Takes false rs) (hq : ∀ q ∈ qs, q.Takes false rs) (ha : ∀ p ∈ ps, ∀ q ∈ qs, Apart p q)
    (pre post : List Act) (ms : List ℕ) (ψ : Wave) :
    actsW rs (pre ++ (ps.map .run ++ (qs.map .run ++ post))) ms ψ = actsW rs (pre ++ (qs.map .run ++ (ps.map .run ++ post))) ms ψ ∧
      actsP rs (pre ++ (ps.map .run ++ (qs.map .run ++ post))) ms ψ = actsP rs (pre ++ (qs.map .run ++ (ps.map .run ++ post))) ms ψ := by
  induction pre generalizing ms ψ with
  | nil => exact swap_all rs hn ps qs hp hq ha post ms ψ
  | cons a pre ih =>
    cases a with
    | run p => simp only [List.cons_append, actsW, actsP]; exact ih ms _
    | measure j =>
      cases ms with
      | nil => exact ⟨rfl, rfl⟩
      | cons m ms =>
        simp only [List.cons_append, actsW, actsP]
        have := ih ms (projW (rs.getD j []) m ψ)
        exact ⟨this.1, by rw [this.2]⟩

theorem swap_takes {rs : List Reg} {ps qs : List Prog} {pre post : List Act} (hT : ∀ a ∈ pre ++ (ps.map .run ++ (qs.map .run ++ post)), a.Takes rs) :
    ∀ a ∈ pre ++ (qs.map .run ++ (ps.map .run ++ post)), a.Takes rs := fun a ha => hT a (by
  simp only [List.mem_append] at ha ⊢
  tauto)

theorem swap_measures (ps qs : List Prog) (pre post : List Act) :
    measures (pre ++ (qs.map .run ++ (ps.map .run ++ post))) = measures (pre ++ (ps.map .run ++ (qs.map .run ++ post))) := by
  simp only [measures_append]
  omega

theorem swap_parts {rs : List Reg} {ps qs : List Prog} {pre post : List Act} (hT : ∀ a ∈ pre ++ (ps.map .run ++ (qs.map .run ++ post)), a.Takes rs) :
    (∀ p ∈ ps, p.Takes false rs) ∧ ∀ q ∈ qs, q.Takes false rs := ⟨fun p hp => hT (.run p) (by simp [hp]), fun q hq => hT (.run q) (by simp [hq])⟩

/-- C133: in every main program, programs `ps` and programs `qs` that are apart from them can be exchanged, whatever comes before and afterwards, measurements included. Both main programs
run and hand out the same registers and handles, and for all initial values every sequence of outcomes has the same probability. -/
theorem C133_exchange {sizes : List ℕ} (hpos : ∀ k ∈ sizes, 0 < k) (ps qs : List Prog) (ha : ∀ p ∈ ps, ∀ q ∈ qs, Apart p q) (pre post : List Act)
    (hT : ∀ a ∈ pre ++ (ps.map .run ++ (qs.map .run ++ post)), a.Takes (blocks 0 sizes)) :
    ∃ out S S', mainProg sizes (pre ++ (ps.map .run ++ (qs.map .run ++ post))) LocalBuilder.default = .ok out S ∧
      mainProg sizes (pre ++ (qs.map .run ++ (ps.map .run ++ post))) LocalBuilder.default = .ok out S' ∧
      ∀ it : List (Reg × ℕ), (∀ e ∈ it, e.1 ∈ blocks 0 sizes) → ∀ ms : List ℕ, ms.length = out.2.length → outcomeProb S it ms = outcomeProb S' it ms := by
  have hT' := swap_takes hT
  obtain ⟨S, h⟩ := C106_runs sizes hpos _ hT
  obtain ⟨S', h'⟩ := C106_runs sizes hpos _ hT'
  rw [swap_measures] at h'
  refine ⟨_, S, S', h, h', fun it hi ms hm => ?_⟩
  rw [List.length_range] at hm
  rw [C106_born hpos hT h it hi ms hm, C106_born hpos hT' h' it hi ms (by rw [hm, swap_measures]),
    (swap_acts _ (blocks_apart sizes) ps qs (swap_parts hT).1 (swap_parts hT).2 ha pre post ms _).1]

/-- C133: whatever numbers in (0,1) are drawn in the two calculations, both succeed. If they report the same outcomes, then they report the same probabilities, and the states
returned are the same. -/
theorem C133_state {sizes : List ℕ} (hpos : ∀ k ∈ sizes, 0 < k) (ps qs : List Prog) (ha : ∀ p ∈ ps, ∀ q ∈ qs, Apart p q) (pre post : List Act)
    (hT : ∀ a ∈ pre ++ (ps.map .run ++ (qs.map .run ++ post)), a.Takes (blocks 0 sizes)) {out out' : List Reg × List ℕ} {S S' : LocalBuilder}
    (h : mainProg sizes (pre ++ (ps.map .run ++ (qs.map .run ++ post))) LocalBuilder.default = .ok out S)
    (h' : mainProg sizes (pre ++ (qs.map .run ++ (ps.map .run ++ post))) LocalBuilder.default = .ok out' S')
    (it : List (Reg × ℕ)) (hi : ∀ e ∈ it, e.1 ∈ blocks 0 sizes) (rnds rnds' : ℕ → ℝ) (hr : ∀ k, 0 < rnds k ∧ rnds k < 1) (hr' : ∀ k, 0 < rnds' k ∧ rnds' k < 1) :
    ∃ v l v' l' χ χ', S.calculateStateWithInit it rnds = some (v, l) ∧ S'.calculateStateWithInit it rnds' = some (v', l') ∧ l.length = l'.length ∧
      Rep S.n v χ ∧ Rep S'.n v' χ' ∧
      ((∀ j < l.length, (getMeasurement l j).map Prod.fst = (getMeasurement l' j).map Prod.fst) →
        χ = χ' ∧ ∀ j < l.length, getMeasurement l j = getMeasurement l' j) := by
  have hT' := swap_takes hT
  obtain ⟨v, l, ms, a1, a2, a3, a4, a5, a6⟩ := C106_state hpos hT h it hi rnds hr
  obtain ⟨v', l', ms', b1, b2, b3, b4, b5, b6⟩ := C106_state hpos hT' h' it hi rnds' hr'
  rw [swap_measures] at b2 b3
  refine ⟨v, l, v', l', _, _, a1, b1, by rw [a2, b2], a6, b6, fun he => ?_⟩
  have hms : ms = ms' := List.ext_getElem (by rw [a3, b3]) fun j h1 h2 => by
    obtain ⟨pr, -, e1⟩ := a4 j h1
    obtain ⟨pr', -, e2⟩ := b4 j h2
    have := he j (by omega)
    rw [e1, e2] at this
    simpa using this
  subst hms
  obtain ⟨d1, d2⟩ := swap_acts _ (blocks_apart sizes) ps qs (swap_parts hT).1 (swap_parts hT).2 ha pre post ms (ket (initAsg it))
  refine ⟨by rw [d1], fun j hj => ?_⟩
  obtain ⟨pr, p1, e1⟩ := a4 j (by omega)
  obtain ⟨pr', p2, e2⟩ := b4 j (by omega)
  rw [← d2, p1] at p2
  rw [e1, e2, Option.some.inj p2]

/-- C133: without the hypothesis this is false: X on the source of `copy` before it and after it. -/
theorem C133_needed : ∃ out S S', mainProg [1, 1] [.run (clonePrep 0 (some .x)), .run (.call .copy), .measure 1] LocalBuilder.default = .ok out S ∧
    mainProg [1, 1] [.run (.call .copy), .run (clonePrep 0 (some .x)), .measure 1] LocalBuilder.default = .ok out S' ∧
    outcomeProb S [] [1] = 1 ∧ outcomeProb S' [] [1] = 0 := by
  have hb : blocks 0 [1, 1] = [[0], [1]] := by decide
  have hi : initAsg [] = fun _ => false := by funext q; simp [initAsg]
  have hx : (clonePrep 0 (some .x)).Takes false (blocks 0 [1, 1]) := by rw [hb]; exact clonePrep_takes (by simp) (by simp) _
  have hc : (Prog.call .copy).Takes false (blocks 0 [1, 1]) := by rw [hb]; simp [Prog.Takes, Method.Takes]
  have hm : (1 : ℕ) < (blocks 0 [1, 1]).length := by rw [hb]; simp
  have hT : ∀ a ∈ [Act.run (clonePrep 0 (some .x)), .run (.call .copy), .measure 1], a.Takes (blocks 0 [1, 1]) := by
    intro a ha
    simp only [List.mem_cons, List.not_mem_nil, or_false] at ha
    rcases ha with rfl | rfl | rfl
    exacts [hx, hc, hm]
  have hT' : ∀ a ∈ [Act.run (.call .copy), .run (clonePrep 0 (some .x)), .measure 1], a.Takes (blocks 0 [1, 1]) := by
    intro a ha
    simp only [List.mem_cons, List.not_mem_nil, or_false] at ha
    rcases ha with rfl | rfl | rfl
    exacts [hc, hx, hm]
  obtain ⟨S, h⟩ := C106_runs [1, 1] (by simp) _ hT
  obtain ⟨S', h'⟩ := C106_runs [1, 1] (by simp) _ hT'
  have hw : ∀ x, lift ((Prog.call .copy).wave false [[0], [1]]) (ket x) = ket (xorMap [0] [1] x) := fun x => by
    rw [lift_ket]; simp only [Prog.wave, Method.wave]
  have g1 : ([[0], [1]] : List Reg).getD 1 [] = [1] := rfl
  have g0 : (([[0], [1]] : List Reg).getD 0 []).getD 0 0 = 0 := rfl
  refine ⟨_, S, S', h, h', ?_, ?_⟩
  · rw [C106_born (by simp) hT h [] (by simp) [1] rfl, hi, hb, acts_run, acts_run, acts_measure, clonePrep_lift, g0, g1, optW, x_ket_at, hw, projW_on (On.ket (by simp [valQ, xorMap]))]
    rw [actsW, normW_ket, ENNReal.ofReal_one]
  · rw [C106_born (by simp) hT' h' [] (by simp) [1] rfl, hi, hb, acts_run, acts_run, acts_measure, clonePrep_lift, g0, g1, hw, optW, x_ket_at, ← projL_apply, projL_ket,
      if_neg (by simp [valQ, xorMap])]
    rw [actsW, normW_zero, ENNReal.ofReal_zero]

/-- example: two programs with a common control, `cnot` from register 0 to register 1 and H of register 2 under the condition of register 0, are apart -/
example : Apart (.prog (.plain (.call .cnot) [[(0, none)], [(1, none)]] .nil)) (.prog (.control none (.call (.named .h)) [(0, none)] [[(2, none)]] .nil)) := by
  intro k h1 h2
  simp only [Prog.Uses, Lines.Uses, or_false] at h1 h2
  obtain ⟨g, hg, s, hs, rfl⟩ := h1
  obtain ⟨g', hg', s', hs', e⟩ := h2
  have h0 : s.1 = 0 := by
    simp only [List.mem_cons, List.not_mem_nil, or_false] at hg hg'
    rcases hg with rfl | rfl <;> rcases hg' with rfl | rfl <;> simp_all
  simp only [Prog.Spares, Lines.Spares, and_true, h0]
  refine ⟨fun j g hj hk => ?_, fun j g hj hk => ?_⟩
  · match j, hj with
    | 0, _ => rfl
    | 1, hj =>
      obtain rfl : [(1, none)] = g := by simpa using hj
      simp at hk
  · match j, hj with
    | 0, hj =>
      obtain rfl : [(2, none)] = g := by simpa using hj
      simp at hk

end Verif.Props
