import Verif.Proofs.Teleport
import Verif.Props.Oracle

/-!
# Property C129: teleportation

The program that sends the state of a register through an entangled pair and two measurements, for registers of any number of qubits and all structured programs (C105) that
prepare the state and go on with it.
-/

namespace Verif.Props
open Complex Finset

/-- the main program: the sender, two measurements, the receiver -/
def teleActs (p q : Prog) : List Act := [.run (telePrep p), .measure 0, .measure 1, .run (teleFix q)]

theorem blocks_tele (n : ℕ) : blocks 0 [n, n, n] = [List.range n, List.range' n n, List.range' (n + n) n] := by
  simp [blocks, List.range_eq_range']

theorem blocks_one (n : ℕ) : blocks 0 [n] = [List.range n] := by simp [blocks, List.range_eq_range']

theorem tele_flat (n : ℕ) : ([List.range n, List.range' n n, List.range' (n + n) n] : List Reg).flatten.Nodup := by
  rw [← blocks_tele, blocks_eq, ranges_flatten]; exact List.nodup_range'

theorem zero_low (n : ℕ) : On (Low n) (ket fun _ => false) := On.ket fun _ _ => rfl

theorem acts_run (rs : List Reg) (p : Prog) (as : List Act) (ms : List ℕ) (ψ : Wave) :
    actsW rs (.run p :: as) ms ψ = actsW rs as ms (lift (p.wave false rs) ψ) := by rw [actsW, lift_eq]

theorem acts_measure (rs : List Reg) (i m : ℕ) (as : List Act) (ms : List ℕ) (ψ : Wave) :
    actsW rs (.measure i :: as) (m :: ms) ψ = actsW rs as ms (projW (rs.getD i []) m ψ) := by rw [actsW]

theorem tele_get0 (n : ℕ) : ([List.range n, List.range' n n, List.range' (n + n) n] : List Reg).getD 0 [] = List.range n := rfl
theorem tele_get1 (n : ℕ) : ([List.range n, List.range' n n, List.range' (n + n) n] : List Reg).getD 1 [] = List.range' n n := rfl

theorem sent_prog {n : ℕ} {p q : Prog} (hp : p.Takes false [List.range n]) (hq : q.Takes false [List.range n]) {s t : ℕ} (hs : s < 2 ^ n) (ht : t < 2 ^ n) :
    lift ((teleFix q).wave false [List.range n, List.range' n n, List.range' (n + n) n]) (projW (List.range' n n) t (projW (List.range n) s
      (lift ((telePrep p).wave false [List.range n, List.range' n n, List.range' (n + n) n]) (ket fun _ => false)))) =
      ((1 : ℂ) / 2 ^ n) • placeL n s t (lift (q.wave false [List.range n]) (lift (p.wave false [List.range n]) (ket fun _ => false))) := by
  have hl := wave_low hp (zero_low n)
  rw [prep_lift, fix_lift, sent hs ht hl, ← place_prog s t hq hl]
  exact LinearMap.map_smul _ _ _

theorem teleActs_wave {n : ℕ} {p q : Prog} (hp : p.Takes false [List.range n]) (hq : q.Takes false [List.range n]) {s t : ℕ} (hs : s < 2 ^ n) (ht : t < 2 ^ n)
    (as : List Act) (ms : List ℕ) :
    actsW [List.range n, List.range' n n, List.range' (n + n) n] (teleActs p q ++ as) (s :: t :: ms) (ket fun _ => false) =
      actsW [List.range n, List.range' n n, List.range' (n + n) n] as ms
        (((1 : ℂ) / 2 ^ n) • placeL n s t (lift (q.wave false [List.range n]) (lift (p.wave false [List.range n]) (ket fun _ => false)))) := by
  rw [teleActs, List.cons_append, List.cons_append, List.cons_append, List.cons_append, List.nil_append, acts_run, acts_measure, acts_measure, acts_run, tele_get0, tele_get1,
    sent_prog hp hq hs ht]

theorem normSq_pow (n : ℕ) : normSq ((1 : ℂ) / 2 ^ n) = 1 / 4 ^ n := by
  have : (1 : ℂ) / 2 ^ n = ((1 / 2 ^ n : ℝ) : ℂ) := by push_cast; rfl
  rw [this, normSq_ofReal, div_mul_div_comm, one_mul, ← mul_pow]
  norm_num

theorem teleActs_takes {n : ℕ} (hn : 0 < n) {p q : Prog} (hp : p.Takes false [List.range n]) (hq : q.Takes false [List.range n]) :
    ∀ a ∈ teleActs p q, a.Takes (blocks 0 [n, n, n]) := by
  rw [blocks_tele]
  intro a ha
  simp only [teleActs, List.mem_cons, List.not_mem_nil, or_false] at ha
  rcases ha with rfl | rfl | rfl | rfl
  · exact prep_takes hn hp
  · show (0 : ℕ) < 3; norm_num
  · show (1 : ℕ) < 3; norm_num
  · exact fix_takes hn hq

/-- C129: whatever `p` prepares and whatever `q` does with it, measuring the third register at the end gives what measuring gives if `q` follows `p` on one register. All outcomes
`s`, `t` of the sender are equally probable, and the outcome of the receiver does not depend on them. -/
theorem C129_teleport {n : ℕ} (hn : 0 < n) {p q : Prog} (hp : p.Takes false [List.range n]) (hq : q.Takes false [List.range n]) :
    ∃ S R, mainProg [n, n, n] (teleActs p q ++ [.measure 2]) LocalBuilder.default = .ok ([List.range n, List.range' n n, List.range' (n + n) n], [0, 1, 2]) S ∧
      mainProg [n] [.run p, .run q, .measure 0] LocalBuilder.default = .ok ([List.range n], [0]) R ∧
      ∀ s < 2 ^ n, ∀ t < 2 ^ n, ∀ m, outcomeProb S [] [s, t, m] = ENNReal.ofReal (1 / 4 ^ n) * outcomeProb R [] [m] := by
  have hpos : ∀ k ∈ [n, n, n], 0 < k := by simp [hn]
  have hpos1 : ∀ k ∈ [n], 0 < k := by simp [hn]
  have hT : ∀ a ∈ teleActs p q ++ [.measure 2], a.Takes (blocks 0 [n, n, n]) := by
    intro a ha
    rcases List.mem_append.mp ha with ha | ha
    · exact teleActs_takes hn hp hq a ha
    · rw [List.mem_singleton.mp ha, blocks_tele]
      show (2 : ℕ) < 3; norm_num
  have hT1 : ∀ a ∈ [Act.run p, .run q, .measure 0], a.Takes (blocks 0 [n]) := by
    rw [blocks_one]
    intro a ha
    simp only [List.mem_cons, List.not_mem_nil, or_false] at ha
    rcases ha with rfl | rfl | rfl
    · exact hp
    · exact hq
    · exact Nat.zero_lt_one
  obtain ⟨S, h⟩ := C106_runs [n, n, n] hpos _ hT
  obtain ⟨R, h1⟩ := C106_runs [n] hpos1 _ hT1
  refine ⟨S, R, by rw [h, blocks_tele]; rfl, by rw [h1, blocks_one]; rfl, fun s hs t ht m => ?_⟩
  have hi : initAsg [] = fun _ => false := by funext q; simp [initAsg]
  rw [C106_born hpos hT h [] (by simp) [s, t, m] rfl, C106_born hpos1 hT1 h1 [] (by simp) [m] rfl, hi, blocks_tele, blocks_one, teleActs_wave hp hq hs ht,
    ← ENNReal.ofReal_mul (by positivity)]
  simp only [actsW, lift_eq]
  rw [show ([List.range n, List.range' n n, List.range' (n + n) n] : List Reg).getD 2 [] = List.range' (n + n) n from rfl,
    show ([List.range n] : List Reg).getD 0 [] = List.range n from rfl, projW_smul, place_proj, normW_smul, normSq_pow,
    place_norm s t ((wave_low hq (wave_low hp (zero_low n))).proj _ _)]

/-- C129: whatever numbers in (0,1) are drawn, the calculation succeeds, both outcomes `s` and `t` of the sender are reported with probability `2^-n`, and the state returned
is the state `φ` that `p` and then `q` make of one register, in the third register, with `s` and `t` in the others. -/
theorem C129_state {n : ℕ} (hn : 0 < n) {p q : Prog} (hp : p.Takes false [List.range n]) (hq : q.Takes false [List.range n])
    {out out' : List Reg × List ℕ} {S R : LocalBuilder} (h : mainProg [n, n, n] (teleActs p q) LocalBuilder.default = .ok out S)
    (h1 : mainProg [n] [.run p, .run q] LocalBuilder.default = .ok out' R) (rnds : ℕ → ℝ) (hr : ∀ k, 0 < rnds k ∧ rnds k < 1) :
    ∃ φ v v' l s t, R.calculateStateWithInit [] rnds = some (v', []) ∧ Rep R.n v' φ ∧ (∀ y ∈ φ.support, ∀ i, n ≤ i → y i = false) ∧
      S.calculateStateWithInit [] rnds = some (v, l) ∧ s < 2 ^ n ∧ t < 2 ^ n ∧
      getMeasurement l 0 = some (s, 1 / 2 ^ n) ∧ getMeasurement l 1 = some (t, 1 / 2 ^ n) ∧
      Rep S.n v (φ.mapDomain fun y => triAsg n s t (valQ (List.range n) y)) := by
  have hpos : ∀ k ∈ [n, n, n], 0 < k := by simp [hn]
  have hpos1 : ∀ k ∈ [n], 0 < k := by simp [hn]
  have hi : initAsg [] = fun _ => false := by funext q; simp [initAsg]
  have hT := teleActs_takes hn hp hq
  have hTp : ∀ r ∈ [p, q], r.Takes false (blocks 0 [n]) := by
    rw [blocks_one]
    intro r hr
    simp only [List.mem_cons, List.not_mem_nil, or_false] at hr
    rcases hr with rfl | rfl <;> assumption
  obtain ⟨v', c1, c2⟩ := C106_unmeasured hpos1 [p, q] hTp h1 [] (by simp) rnds
  rw [blocks_one, hi] at c2
  simp only [List.foldl_cons, List.foldl_nil, lift_eq] at c2
  have hl1 := wave_low hp (zero_low n)
  have hl := wave_low hq hl1
  have hφ : normW (lift (q.wave false [List.range n]) (lift (p.wave false [List.range n]) (ket fun _ => false))) = 1 := by
    rw [← lift_eq, ← lift_eq, C107_unitary q _ hq (by simpa using List.nodup_range), C107_unitary p _ hp (by simpa using List.nodup_range), normW_ket]
  generalize hφe : lift (q.wave false [List.range n]) (lift (p.wave false [List.range n]) (ket fun _ => false)) = φ at c2 hl hφ
  obtain ⟨v, l, ms, a1, a2, a3, a4, a5, a6⟩ := C106_state hpos hT h [] (by simp) rnds hr
  rw [show measures (teleActs p q) = 2 from rfl, List.length_eq_two] at a3
  obtain ⟨s, t, rfl⟩ := a3
  rw [hi, blocks_tele] at a4 a5 a6
  have hps : ∀ s', 2 ^ n ≤ s' → ∀ ψ, projW (List.range n) s' ψ = 0 := fun s' h ψ => projW_big _ _ (by simpa using h) ψ
  have hpt : ∀ s', 2 ^ n ≤ s' → ∀ ψ, projW (List.range' n n) s' ψ = 0 := fun s' h ψ => projW_big _ _ (by simpa using h) ψ
  have g0 : ([List.range n, List.range' n n, List.range' (n + n) n] : List Reg).getD 0 [] = List.range n := rfl
  have g1 : ([List.range n, List.range' n n, List.range' (n + n) n] : List Reg).getD 1 [] = List.range' n n := rfl
  have hs : s < 2 ^ n := by
    by_contra hc
    simp only [teleActs, actsW, lift_eq] at a5
    rw [g0, g1, hps s (by omega), show projW (List.range' n n) t 0 = 0 from (projL _ t).map_zero, map_zero, normW_zero] at a5
    exact lt_irrefl _ a5
  have ht : t < 2 ^ n := by
    by_contra hc
    simp only [teleActs, actsW, lift_eq] at a5
    rw [g0, g1, hpt t (by omega), map_zero, normW_zero] at a5
    exact lt_irrefl _ a5
  have hn0 : normW (prepL n (lift (p.wave false [List.range n]) (ket fun _ => false))) = 1 := by
    rw [← prep_lift, ← lift_eq, C107_unitary _ _ (prep_takes hn hp) (tele_flat n), normW_ket]
  have hn2 : ∀ t < 2 ^ n, normW (projW (List.range' n n) t (projW (List.range n) s (prepL n (lift (p.wave false [List.range n]) (ket fun _ => false))))) = 1 / 4 ^ n := by
    intro t ht
    rw [← C107_unitary _ _ (fix_takes hn hq) (tele_flat n), lift_eq, fix_lift, sent hs ht hl1, map_smul, place_prog s t hq hl1, hφe, normW_smul, normSq_pow, place_norm s t hl, hφ,
      mul_one]
  have h24 : (2 : ℝ) ^ n * (1 / 4 ^ n) = 1 / 2 ^ n := by
    rw [show (4 : ℝ) = 2 * 2 by norm_num, mul_pow]
    field_simp
  have hn1 : normW (projW (List.range n) s (prepL n (lift (p.wave false [List.range n]) (ket fun _ => false)))) = 1 / 2 ^ n := by
    rw [← normW_proj_sum (List.range' n n), List.length_range', Finset.sum_congr rfl fun t ht => hn2 t (Finset.mem_range.mp ht), Finset.sum_const, Finset.card_range, nsmul_eq_mul]
    push_cast
    exact h24
  have hw := teleActs_wave hp hq hs ht [] []
  rw [List.append_nil, hφe] at hw
  simp only [actsW] at hw
  rw [hw] at a6
  refine ⟨φ, v, v', l, s, t, c1, c2, fun y hy => on_iff.mp hl y hy, a1, hs, ht, ?_, ?_, ?_⟩
  · obtain ⟨pr, b1, b2⟩ := a4 0 (by simp)
    rw [b2]
    simp only [teleActs, actsP, lift_eq, List.getElem?_cons_zero, Option.some.injEq] at b1
    rw [prep_lift, g0, hn1, hn0, div_one] at b1
    rw [← b1]
    rfl
  · obtain ⟨pr, b1, b2⟩ := a4 1 (by simp)
    rw [b2]
    simp only [teleActs, actsP, lift_eq, List.getElem?_cons_zero, List.getElem?_cons_succ, Option.some.injEq] at b1
    rw [prep_lift, g0, g1, hn1, hn2 t ht] at b1
    have e : (1 / 4 ^ n : ℝ) / (1 / 2 ^ n) = 1 / 2 ^ n := by
      rw [← h24, show (4 : ℝ) = 2 * 2 by norm_num, mul_pow]
      field_simp
    rw [← b1, e]
    rfl
  · have e : unitW (((1 : ℂ) / 2 ^ n) • placeL n s t φ) = placeL n s t φ := by
      unfold unitW
      have h2 : (1 / 4 ^ n : ℝ) = (1 / 2 ^ n) ^ 2 := by rw [div_pow, one_pow, ← pow_mul, mul_comm, pow_mul]; norm_num
      rw [normW_smul, normSq_pow, place_norm s t hl, hφ, mul_one, h2, Real.sqrt_sq (by positivity), smul_smul]
      have : ((1 / (1 / 2 ^ n : ℝ) : ℝ) : ℂ) * (1 / 2 ^ n) = 1 := by
        push_cast
        field_simp
      rw [this, one_smul]
    rw [e, placeL_eq] at a6
    exact a6

/-- C129: the same if nothing is measured in between: the outcomes of the third register are those of `q` after `p` on one register. -/
theorem C129_deferred {n : ℕ} (hn : 0 < n) {p q : Prog} (hp : p.Takes false [List.range n]) (hq : q.Takes false [List.range n]) :
    ∃ S R, mainProg [n, n, n] [.run (telePrep p), .run (teleFix q), .measure 2] LocalBuilder.default =
        .ok ([List.range n, List.range' n n, List.range' (n + n) n], [0]) S ∧
      mainProg [n] [.run p, .run q, .measure 0] LocalBuilder.default = .ok ([List.range n], [0]) R ∧
      ∀ m, outcomeProb S [] [m] = outcomeProb R [] [m] := by
  have hpos : ∀ k ∈ [n, n, n], 0 < k := by simp [hn]
  have hpos1 : ∀ k ∈ [n], 0 < k := by simp [hn]
  have hT : ∀ a ∈ [Act.run (telePrep p), .run (teleFix q), .measure 2], a.Takes (blocks 0 [n, n, n]) := by
    rw [blocks_tele]
    intro a ha
    simp only [List.mem_cons, List.not_mem_nil, or_false] at ha
    rcases ha with rfl | rfl | rfl
    · exact prep_takes hn hp
    · exact fix_takes hn hq
    · show (2 : ℕ) < 3; norm_num
  have hT1 : ∀ a ∈ [Act.run p, .run q, .measure 0], a.Takes (blocks 0 [n]) := by
    rw [blocks_one]
    intro a ha
    simp only [List.mem_cons, List.not_mem_nil, or_false] at ha
    rcases ha with rfl | rfl | rfl
    · exact hp
    · exact hq
    · exact Nat.zero_lt_one
  obtain ⟨S, h⟩ := C106_runs [n, n, n] hpos _ hT
  obtain ⟨R, h1⟩ := C106_runs [n] hpos1 _ hT1
  refine ⟨S, R, by rw [h, blocks_tele]; rfl, by rw [h1, blocks_one]; rfl, fun m => ?_⟩
  have hi : initAsg [] = fun _ => false := by funext q; simp [initAsg]
  have hl1 := wave_low hp (zero_low n)
  have hl := wave_low hq hl1
  rw [C106_born hpos hT h [] (by simp) [m] rfl, C106_born hpos1 hT1 h1 [] (by simp) [m] rfl, hi, blocks_tele, blocks_one]
  simp only [actsW, lift_eq]
  rw [show ([List.range n, List.range' n n, List.range' (n + n) n] : List Reg).getD 2 [] = List.range' (n + n) n from rfl,
    show ([List.range n] : List Reg).getD 0 [] = List.range n from rfl, prep_lift, fix_lift, sent_all hl1]
  simp only [map_smul, map_sum, place_prog _ _ hq hl1]
  generalize lift (q.wave false [List.range n]) (lift (p.wave false [List.range n]) (ket fun _ => false)) = φ at hl
  rw [← projL_apply]
  simp only [map_smul, map_sum]
  simp only [projL_apply, place_proj]
  have hl' := hl.proj (List.range n) m
  generalize projW (List.range n) m φ = χ at hl'
  congr 1
  have ea : ∀ s < 2 ^ n, ∀ t, On {y | valQ (List.range n) y = s} (placeL n s t χ) := fun s hs t => hl'.map _ fun y _ => by
    rw [show placeL n s t (ket y) = ket (triAsg n s t (valQ (List.range n) y)) from lift_ket _ _]
    exact On.ket (tri_a hs)
  have eb : ∀ s, ∀ t < 2 ^ n, On {y | valQ (List.range' n n) y = t} (placeL n s t χ) := fun s t ht => hl'.map _ fun y _ => by
    rw [show placeL n s t (ket y) = ket (triAsg n s t (valQ (List.range n) y)) from lift_ket _ _]
    exact On.ket (tri_b ht)
  have e1 : ∀ s ∈ Finset.range (2 ^ n), normW (∑ t ∈ Finset.range (2 ^ n), placeL n s t χ) = 2 ^ n * normW χ := by
    intro s _
    rw [← normW_proj_sum (List.range' n n), List.length_range', Finset.sum_congr rfl fun t ht => ?_, Finset.sum_const, Finset.card_range, nsmul_eq_mul]
    · push_cast; rfl
    · rw [projW_sum, Finset.sum_eq_single t, projW_on (eb s t (Finset.mem_range.mp ht)), place_norm s t hl']
      · intro t' ht' hne
        exact projW_off (eb s t' (Finset.mem_range.mp ht')) hne
      · exact fun h => absurd ht h
  have e2 : normW (∑ s ∈ Finset.range (2 ^ n), ∑ t ∈ Finset.range (2 ^ n), placeL n s t χ) = 2 ^ n * (2 ^ n * normW χ) := by
    rw [← normW_proj_sum (List.range n), List.length_range, Finset.sum_congr rfl fun s hs => ?_, Finset.sum_const, Finset.card_range, nsmul_eq_mul]
    · push_cast; rfl
    · have hs' := Finset.mem_range.mp hs
      rw [projW_sum, Finset.sum_eq_single s, projW_sum, Finset.sum_congr rfl fun t _ => projW_on (ea s hs' t), e1 s hs]
      · intro s' hs' hne
        rw [projW_sum]
        exact Finset.sum_eq_zero fun t _ => projW_off (ea s' (Finset.mem_range.mp hs') t) hne
      · exact fun h => absurd hs h
  rw [normW_smul, normSq_pow, e2, ← mul_assoc, ← mul_assoc, show (4 : ℝ) = 2 * 2 by norm_num, mul_pow]
  field_simp

/-- example: H and `T` on two qubits are sent, and undone by the receiver except for H: the hypotheses hold, and the outcomes are those of one register -/
example : ∃ S R, mainProg [2, 2, 2] (teleActs (.prog (.plain (.call (.named .h)) [[(0, none)]] (.plain (.call (.named .t)) [[(0, none)]] .nil))) (.call (.named .h)) ++ [.measure 2])
      LocalBuilder.default = .ok ([List.range 2, List.range' 2 2, List.range' 4 2], [0, 1, 2]) S ∧
    mainProg [2] [.run (.prog (.plain (.call (.named .h)) [[(0, none)]] (.plain (.call (.named .t)) [[(0, none)]] .nil))), .run (.call (.named .h)), .measure 0]
      LocalBuilder.default = .ok ([List.range 2], [0]) R ∧
    outcomeProb S [] [3, 1, 2] = ENNReal.ofReal (1 / 4 ^ 2) * outcomeProb R [] [2] := by
  have hg : ∀ (k : Named), (Prog.call (.named k)).Takes false [List.range 2] := fun k => by simp [Prog.Takes, Method.Takes, List.range_succ]
  have hv : ValidGroups [List.range 2] [[(0, none)]] := by
    refine ⟨?_, ?_, by simp, ?_⟩
    · simp [groupPos, selPos]
    · simp only [List.flatMap_cons, List.flatMap_nil, groupPos, selPos, List.append_nil]
      exact List.nodup_range.map fun a b h => by simpa using h
    · unfold HasPos
      simp [groupPos, selPos]
  have hf : groupReg [List.range 2] [(0, none)] = List.range 2 := groupReg_all _ 0
  have hp : (Prog.prog (.plain (.call (.named .h)) [[(0, none)]] (.plain (.call (.named .t)) [[(0, none)]] .nil))).Takes false [List.range 2] := by
    rw [Prog.Takes]
    simp only [Lines.Takes, List.map_cons, List.map_nil, hf]
    exact ⟨by simp, hv, hg _, hv, hg _, trivial⟩
  obtain ⟨S, R, h1, h2, h3⟩ := C129_teleport (by norm_num) hp (hg .h)
  exact ⟨S, R, h1, h2, h3 3 (by norm_num) 1 (by norm_num) 2⟩

end Verif.Props
