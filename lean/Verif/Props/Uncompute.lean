import Verif.Proofs.Uncompute
import Verif.Props.Commute

/-!
# Property C134: uncomputing

A classical computation, the use of its result, and the inverse of the computation leave no trace in the registers of the computation.
-/

namespace Verif.Props
open Complex

/-- C134: a structured program of classical library functions (`Prog.Classical`), with conditions, `program!` lines and inversions at any depth, takes every basis state to one basis state
times a factor; outside conditions the factor has absolute value 1. -/
theorem C134_classical (p : Prog) (inside : Bool) (h : p.Classical inside) (rs : List Reg) (hp : p.Takes inside rs) (hn : rs.flatten.Nodup) (x : Asg) :
    ∃ (z : ℂ) (y : Asg), p.wave inside rs x = z • ket y ∧ (inside = false → normSq z = 1) := by
  obtain ⟨z, y, e⟩ := p.mono inside h rs hp hn x
  refine ⟨z, y, e, fun hi => ?_⟩
  subst hi
  have := C107_unitary p rs hp hn (ket x)
  rwa [lift_eq, lift_ket, e, normW_smul, normW_ket, normW_ket, mul_one] at this

theorem computeUse_wave (attr : Bool) (p q : Prog) (gs hs : List (List Sel)) (rs : List Reg) (x : Asg) : (computeUse attr p q gs hs).wave false rs x = lift (daggerW (gs.map (groupReg rs)).flatten (p.wave false (gs.map (groupReg rs))))
    (lift (q.wave false (hs.map (groupReg rs))) (p.wave false (gs.map (groupReg rs)) x)) := by
  have e3 : lift ((Lines.plain (.inv attr p) gs .nil).wave false rs) = lift (daggerW (gs.map (groupReg rs)).flatten (p.wave false (gs.map (groupReg rs)))) := by
    refine wave_ext fun y => ?_
    rw [lift_ket, lift_ket]
    simp only [Lines.wave, Prog.wave, lift_eq]
    exact LinearMap.congr_fun lift_ket_id _
  have e2 : ∀ ψ, lift ((Lines.plain q hs (.plain (.inv attr p) gs .nil)).wave false rs) ψ =
      lift ((Lines.plain (.inv attr p) gs .nil).wave false rs) (lift (q.wave false (hs.map (groupReg rs))) ψ) := by
    intro ψ
    have : lift ((Lines.plain q hs (.plain (.inv attr p) gs .nil)).wave false rs) =
        lift ((Lines.plain (.inv attr p) gs .nil).wave false rs) ∘ₗ lift (q.wave false (hs.map (groupReg rs))) := wave_ext fun y => by
      rw [LinearMap.comp_apply, lift_ket, lift_ket]
      rw [Lines.wave, lift_eq]
    rw [this]
    rfl
  rw [computeUse, Prog.wave, Lines.wave, lift_eq, e2, e3]

theorem computeUse_leaves {attr : Bool} {p q : Prog} {gs hs : List (List Sel)} {rs : List Reg} (hT : (computeUse attr p q gs hs).Takes false rs) (hn : rs.flatten.Nodup)
    (hc : p.Classical false) (hs' : ∀ k, NamesReg gs k → (Lines.plain q hs .nil).Spares k) {k : ℕ} (hk : NamesReg gs k) :
    KeepsReg (rs.getD k []) ((computeUse attr p q gs hs).wave false rs) := by
  have hT0 := hT
  unfold computeUse at hT
  simp only [Prog.Takes, Lines.Takes] at hT
  obtain ⟨-, v1, t1, v2, t2, -, -, -⟩ := hT
  have n1 := (groups_nodup rs hn gs v1).1
  have hq : (Lines.plain q hs .nil).Takes false rs := by
    simp only [Lines.Takes]
    exact ⟨v2, t2, trivial⟩
  have hw : ∀ x, (Lines.plain q hs .nil).wave false rs x = q.wave false (hs.map (groupReg rs)) x := fun x => by
    simp only [Lines.wave, lift_eq]
    exact LinearMap.congr_fun lift_ket_id _
  have hkeep : ∀ j, NamesReg gs j → KeepsReg (rs.getD j []) (q.wave false (hs.map (groupReg rs))) := fun j hj x => by
    rw [← hw]
    exact Lines.leaves _ j (hs' j hj) false rs hq hn x
  have key := uncompute_leaves (P := {i | i ∈ (gs.map (groupReg rs)).flatten}) (R := (hs.map (groupReg rs)).flatten) n1 (p.mono false hc _ t1 n1) (p.localAll false _ t1 n1)
    (p.keepsW false _ t1 n1) (fun x => (p.undo _ t1 n1 x).1) (q.keepsW false _ t2 (groups_nodup rs hn hs v2).1) (T := {i | ∃ j, NamesReg gs j ∧ i ∈ rs.getD j []})
    (fun i hi => by
      obtain ⟨j, h1, h2⟩ := groups_used (gs' := gs) v1 (fun _ h => h) hi
      exact ⟨j, h1, h2⟩)
    (fun x => on_iff.mpr fun y hy i ⟨j, h1, h2⟩ => on_iff.mp (hkeep j h1 x) y hy i h2)
  intro x
  rw [computeUse_wave]
  exact (key x).mono fun y hy i hi => hy i ⟨k, hk, hi⟩

/-- C134: compute with a classical program `p`, use the result with `q`, which leaves the registers of the computation as they are, uncompute with the inverse of `p`: every register that
the computation has to do with, work registers included, ends as it began, in every basis state. -/
theorem C134_clean {attr : Bool} {p q : Prog} {gs hs : List (List Sel)} {rs : List Reg} (hT : (computeUse attr p q gs hs).Takes false rs) (hn : rs.flatten.Nodup)
    (hc : p.Classical false) (hs' : ∀ k, NamesReg gs k → (Lines.plain q hs .nil).Spares k) (x : Asg) :
    ∀ y ∈ ((computeUse attr p q gs hs).wave false rs x).support, ∀ k, NamesReg gs k → ∀ i ∈ rs.getD k [], y i = x i :=
  fun y hy _ hk => on_iff.mp (computeUse_leaves hT hn hc hs' hk x) y hy

theorem flip_xor (a b : Reg) (t y : Asg) : flipAll (b.filter fun q => t (a.getD (b.idxOf q) 0)) y = fun q => if q ∈ b then xor (y q) (t (a.getD (b.idxOf q) 0)) else y q := by
  funext q
  unfold flipAll
  simp only [List.mem_filter]
  by_cases hq : q ∈ b <;> cases h : t (a.getD (b.idxOf q) 0) <;> simp [hq]

/-- C134: with `copy` as the use, from qubits `a` to other qubits `b` that the computation has nothing to do with, the result of the computation is added to `b`, all other qubits
end as they began, and there is no phase left, whatever phases the computation has. -/
theorem C134_copied {attr : Bool} {p : Prog} {gs hs : List (List Sel)} {rs : List Reg} (hT : (computeUse attr p (.call .copy) gs hs).Takes false rs) (hn : rs.flatten.Nodup)
    (hc : p.Classical false) {a b : Reg} (hab : hs.map (groupReg rs) = [a, b]) (hb : ∀ q ∈ b, q ∉ (gs.map (groupReg rs)).flatten) (x : Asg) :
    ∃ (z : ℂ) (t : Asg), p.wave false (gs.map (groupReg rs)) x = z • ket t ∧
      (computeUse attr p (.call .copy) gs hs).wave false rs x = ket fun q => if q ∈ b then xor (x q) (t (a.getD (b.idxOf q) 0)) else x q := by
  unfold computeUse at hT
  simp only [Prog.Takes, Lines.Takes] at hT
  obtain ⟨-, v1, t1, -⟩ := hT
  have n1 := (groups_nodup rs hn gs v1).1
  obtain ⟨z, t, h⟩ := p.mono false hc _ t1 n1 x
  refine ⟨z, t, h, ?_⟩
  have h1 := (p.undo _ t1 n1 x).1
  rw [h, map_smul, lift_ket] at h1
  have hL := (p.localAll false _ t1 n1).dagger n1 (p.keepsW false _ t1 n1)
  have hw : (Prog.call .copy).wave false [a, b] t = ket (flipAll (b.filter fun q => t (a.getD (b.idxOf q) 0)) t) := by
    simp only [Prog.wave, Method.wave]
    rw [flip_xor]
    rfl
  rw [computeUse_wave, hab, h, map_smul, lift_ket, hw, map_smul, lift_ket, hL.blind _ (fun q hq => hb q (List.mem_filter.mp hq).1), ← map_smul, h1, flipL_ket, flip_xor]

/-- C134: in a main program, measuring a register of the computation afterwards gives its initial value with probability 1. -/
theorem C134_measured {attr : Bool} {p q : Prog} {gs hs : List (List Sel)} {sizes : List ℕ} (hpos : ∀ k ∈ sizes, 0 < k) (hT : (computeUse attr p q gs hs).Takes false (blocks 0 sizes))
    (hc : p.Classical false) (hs' : ∀ k, NamesReg gs k → (Lines.plain q hs .nil).Spares k) (k : ℕ) (hk : NamesReg gs k) :
    ∃ S, mainProg sizes [.run (computeUse attr p q gs hs), .measure k] LocalBuilder.default = .ok (blocks 0 sizes, [0]) S ∧
      ∀ it : List (Reg × ℕ), (∀ e ∈ it, e.1 ∈ blocks 0 sizes) → outcomeProb S it [valQ ((blocks 0 sizes).getD k []) (initAsg it)] = 1 := by
  have hkl : k < (blocks 0 sizes).length := by
    have h := hT
    unfold computeUse at h
    simp only [Prog.Takes, Lines.Takes] at h
    obtain ⟨g, hg, s, hs, rfl⟩ := hk
    exact h.2.1.reg g hg s hs
  have hT' : ∀ a ∈ [Act.run (computeUse attr p q gs hs), .measure k], a.Takes (blocks 0 sizes) := by
    intro a ha
    simp only [List.mem_cons, List.not_mem_nil, or_false] at ha
    rcases ha with rfl | rfl
    · exact hT
    · exact hkl
  obtain ⟨S, h⟩ := C106_runs sizes hpos _ hT'
  refine ⟨S, h, fun it hi => ?_⟩
  rw [C106_born hpos hT' h it hi [_] rfl, acts_run, acts_measure, (computeUse_leaves hT (blocks_apart sizes) hc hs' hk).proj, projW_on (On.ket rfl), actsW, ← lift_eq,
    C107_unitary _ _ hT (blocks_apart sizes), normW_ket, ENNReal.ofReal_one]

/-- the example: toffoli of two qubits to a work qubit, `cnot` from there, uncompute -/
def bennett (p : Prog) : Prog := computeUse true p (.call .cnot) [[(0, none)], [(1, none)]] [[(1, none)], [(2, none)]]

theorem bennett_blocks : blocks 0 [2, 1, 1] = [[0, 1], [2], [3]] := by decide

theorem bennett_groups : ([[(0, none)], [(1, none)]] : List (List Sel)).map (groupReg [[0, 1], [2], [3]]) = [[0, 1], [2]] ∧
    ([[(1, none)], [(2, none)]] : List (List Sel)).map (groupReg [[0, 1], [2], [3]]) = [[2], [3]] := by decide

theorem bennett_takes {p : Prog} (hp : p.Takes false [[0, 1], [2]]) (ht : Touches 2 (p.wave false [[0, 1], [2]])) : (bennett p).Takes false [[0, 1], [2], [3]] := by
  unfold bennett computeUse
  simp only [Prog.Takes, Lines.Takes, bennett_groups.1, bennett_groups.2]
  have v1 : ValidGroups [[0, 1], [2], [3]] [[(0, none)], [(1, none)]] := ⟨by decide, by decide, by decide, by unfold HasPos; decide⟩
  have v2 : ValidGroups [[0, 1], [2], [3]] [[(1, none)], [(2, none)]] := ⟨by decide, by decide, by decide, by unfold HasPos; decide⟩
  exact ⟨by decide, v1, hp, v2, ⟨by decide, by decide⟩, v1, ⟨trivial, by decide, by decide, hp, ht⟩, trivial⟩

theorem bennett_spares : ∀ k, NamesReg [[(0, none)], [(1, none)]] k → (Lines.plain (.call .cnot) [[(1, none)], [(2, none)]] .nil).Spares k := by
  intro k hk
  have hk2 : k < 2 := by
    obtain ⟨g, hg, s, hs, rfl⟩ := hk
    simp only [List.mem_cons, List.not_mem_nil, or_false] at hg
    rcases hg with rfl | rfl <;> (simp only [List.mem_singleton] at hs; subst hs; norm_num)
  simp only [Lines.Spares, and_true]
  intro j g hj hs
  match j, hj with
  | 0, _ => simp only [Prog.Spares, Method.Spares]
  | 1, hj =>
    obtain rfl : [(2, none)] = g := by simpa using hj
    obtain ⟨s, h1, h2⟩ := hs
    obtain rfl := List.mem_singleton.mp h1
    simp only at h2
    omega

/-- example: the hypotheses hold, and the work qubit ends as it began, whatever the initial values -/
example : ∃ S, mainProg [2, 1, 1] [.run (bennett (.call .toffoli)), .measure 1] LocalBuilder.default = .ok (blocks 0 [2, 1, 1], [0]) S ∧
    ∀ it : List (Reg × ℕ), (∀ e ∈ it, e.1 ∈ blocks 0 [2, 1, 1]) → outcomeProb S it [valQ ((blocks 0 [2, 1, 1]).getD 1 []) (initAsg it)] = 1 := by
  refine C134_measured (by decide) ?_ (by simp [Prog.Classical, Method.Classical]) bennett_spares 1 ⟨[(1, none)], by simp, (1, none), by simp, rfl⟩
  rw [bennett_blocks]
  refine bennett_takes (by simp [Prog.Takes, Method.Takes]) ?_
  refine ⟨fun _ => true, .inl ⟨flipAll [2] fun _ => true, ?_, by simp [flipAll]⟩⟩
  rw [Finsupp.mem_support_iff]
  simp [Prog.wave, Method.wave, flipIf, ket]

/-- example: the and of two qubits is computed in a work qubit (with `toffoli`), copied and uncomputed -/
example (x : Asg) : (computeUse true (.call .toffoli) (.call .copy) [[(0, none)], [(1, none)]] [[(1, none)], [(2, none)]]).wave false [[0, 1], [2], [3]] x =
    ket (setQ 3 (xor (x 3) (xor (x 2) (x 0 && x 1))) x) := by
  have v1 : ValidGroups [[0, 1], [2], [3]] [[(0, none)], [(1, none)]] := ⟨by decide, by decide, by decide, by unfold HasPos; decide⟩
  have v2 : ValidGroups [[0, 1], [2], [3]] [[(1, none)], [(2, none)]] := ⟨by decide, by decide, by decide, by unfold HasPos; decide⟩
  have hp : (Prog.call .toffoli).Takes false [[0, 1], [2]] := by simp [Prog.Takes, Method.Takes]
  have ht : Touches 2 ((Prog.call .toffoli).wave false [[0, 1], [2]]) := by
    refine ⟨fun _ => true, .inl ⟨flipAll [2] fun _ => true, ?_, by simp [flipAll]⟩⟩
    rw [Finsupp.mem_support_iff]
    simp [Prog.wave, Method.wave, flipIf, ket]
  have hT : (computeUse true (.call .toffoli) (.call .copy) [[(0, none)], [(1, none)]] [[(1, none)], [(2, none)]]).Takes false [[0, 1], [2], [3]] := by
    unfold computeUse
    simp only [Prog.Takes, Lines.Takes, bennett_groups.1, bennett_groups.2]
    exact ⟨by decide, v1, hp, v2, by simp [Method.Takes], v1, ⟨trivial, by decide, by decide, hp, ht⟩, trivial⟩
  obtain ⟨z, t, h1, h2⟩ := C134_copied hT (by decide) (by simp [Prog.Classical, Method.Classical]) bennett_groups.2 (by rw [bennett_groups.1]; decide) x
  have hz : z • ket t ≠ 0 := fun h0 => by
    have := C107_unitary (.call .toffoli) _ hp (by decide) (ket x)
    rw [lift_eq, lift_ket, ← bennett_groups.1, h1, h0, normW_zero, normW_ket] at this
    exact zero_ne_one this
  have ht2 : t 2 = xor (x 2) (x 0 && x 1) := by
    have e : (Prog.call .toffoli).wave false [[0, 1], [2]] x = ket (setQ 2 (xor (x 2) (x 0 && x 1)) x) := by
      simp only [Prog.wave, Method.wave, flipIf]
      by_cases h : x 0 = true ∧ x 1 = true
      · simp [h.1, h.2]
        congr 1
        funext q
        by_cases hq : q = 2 <;> simp [flipAll, setQ, hq]
      · have h' : (x 0 && x 1) = false := by cases h0 : x 0 <;> cases h3 : x 1 <;> simp_all
        simp [h', h]
    rw [bennett_groups.1, e] at h1
    by_contra hne
    refine hz ?_
    have := DFunLike.congr_fun h1 t
    rw [Finsupp.smul_apply, ket, ket, Finsupp.single_eq_same, Finsupp.single_eq_of_ne fun h => hne (by rw [h]; simp)] at this
    rw [show z = 0 by simpa using this.symm, zero_smul]
  rw [h2]
  congr 1
  funext q
  by_cases hq : q = 3 <;> simp [hq, ht2, setQ]

/-- H on the work qubit -/
def workH : Prog := .prog (.plain (.call (.named .h)) [[(1, none)]] .nil)

theorem workH_wave (x : Asg) : workH.wave false [[0, 1], [2]] x = gateW [2] (Named.mat .h) (ket x) := by
  have hg : ([[(1, none)]] : List (List Sel)).map (groupReg [[0, 1], [2]]) = [[2]] := by decide
  simp only [workH, Prog.wave, Lines.wave, hg, Method.wave, lift_eq]
  exact LinearMap.congr_fun lift_ket_id _

theorem workH_takes : workH.Takes false [[0, 1], [2]] := by
  have hg : ([[(1, none)]] : List (List Sel)).map (groupReg [[0, 1], [2]]) = [[2]] := by decide
  simp only [workH, Prog.Takes, Lines.Takes, hg]
  exact ⟨by decide, ⟨by decide, by decide, by decide, by unfold HasPos; decide⟩, ⟨by decide, by simp⟩, trivial⟩

theorem sqrt_half_ne : (1 / (Real.sqrt 2 : ℂ)) ≠ 0 := by
  rw [Ne, div_eq_zero_iff, ofReal_eq_zero]
  simp

theorem workH_touches : Touches 2 (workH.wave false [[0, 1], [2]]) := by
  refine ⟨fun _ => false, .inl ⟨setQ 2 true fun _ => false, ?_, by simp⟩⟩
  rw [Finsupp.mem_support_iff, workH_wave, had_zero_ket rfl, x_ket_at, Finsupp.smul_apply, Finsupp.add_apply, smul_eq_mul]
  have h1 : ket (fun _ => false) (setQ 2 true fun _ => false) = 0 := Finsupp.single_eq_of_ne fun h => by simpa using congrFun h 2
  have h2 : ket (setQ 2 (!false) fun _ => false) (setQ 2 true fun _ => false) = 1 := Finsupp.single_eq_same
  rw [h1, h2, zero_add, mul_one]
  exact sqrt_half_ne

/-- C134: for a computation that is not classical this is false: with H on the work qubit, all else as in the example, the work qubit is not 0 again with certainty. -/
theorem C134_needed : ∃ S, mainProg [2, 1, 1] [.run (bennett workH), .measure 1] LocalBuilder.default = .ok (blocks 0 [2, 1, 1], [0]) S ∧ outcomeProb S [] [0] ≠ 1 := by
  have hTk : (bennett workH).Takes false (blocks 0 [2, 1, 1]) := by rw [bennett_blocks]; exact bennett_takes workH_takes workH_touches
  have hT : ∀ a ∈ [Act.run (bennett workH), .measure 1], a.Takes (blocks 0 [2, 1, 1]) := by
    intro a ha
    simp only [List.mem_cons, List.not_mem_nil, or_false] at ha
    rcases ha with rfl | rfl
    · exact hTk
    · show (1 : ℕ) < (blocks 0 [2, 1, 1]).length
      decide
  obtain ⟨S, h⟩ := C106_runs [2, 1, 1] (by decide) _ hT
  refine ⟨S, h, fun hp => ?_⟩
  have hi : initAsg [] = fun _ => false := by funext q; simp [initAsg]
  have hnorm : normW (lift ((bennett workH).wave false (blocks 0 [2, 1, 1])) (ket fun _ => false)) = 1 := by
    rw [← lift_eq, C107_unitary _ _ hTk (blocks_apart _), normW_ket]
  rw [C106_born (by decide) hT h [] (by simp) [0] rfl, hi, acts_run, acts_measure, actsW, ENNReal.ofReal_eq_one] at hp
  have hon := on_of_norm (hnorm.trans hp.symm).le
  rw [bennett_blocks, lift_ket] at hon
  have hU : lift (workH.wave false [[0, 1], [2]]) = gateW [2] (Named.mat .h) := wave_ext fun x => by rw [lift_ket, workH_wave]
  have hD : lift (daggerW [0, 1, 2] (workH.wave false [[0, 1], [2]])) = gateW [2] (Named.mat .h) := wave_ext fun x => by
    have h1 := fun x => (workH.undo _ workH_takes (by decide) x).1
    have h2 : lift (daggerW [0, 1, 2] (workH.wave false [[0, 1], [2]])) ∘ₗ lift (workH.wave false [[0, 1], [2]]) = LinearMap.id := wave_ext fun x => by
      rw [LinearMap.comp_apply, lift_ket]
      exact h1 x
    have h3 : gateW [2] (Named.mat .h) (gateW [2] (Named.mat .h) (ket x)) = ket x := had_twice [2] (by simp) (ket x)
    conv_lhs => rw [← h3, ← hU]
    rw [hU]
    have := LinearMap.congr_fun h2 (gateW [2] (Named.mat .h) (ket x))
    rw [LinearMap.comp_apply, hU] at this
    exact this
  have hw : (bennett workH).wave false [[0, 1], [2], [3]] (fun _ => false) =
      gateW [2] (Named.mat .h) (lift (fun x => flipIf 1 [2] [3] x) (gateW [2] (Named.mat .h) (ket fun _ => false))) := by
    unfold bennett
    rw [computeUse_wave, bennett_groups.1, bennett_groups.2, workH_wave]
    rw [show ([[0, 1], [2]] : List Reg).flatten = [0, 1, 2] from rfl, hD]
    congr 1
  rw [hw, had_zero_ket rfl, x_ket_at, map_smul, map_add, lift_ket, lift_ket] at hon
  have f0 : flipIf 1 [2] [3] (fun _ => false) = ket fun _ => false := by simp [flipIf]
  have f1 : flipIf 1 [2] [3] (setQ 2 (!false) fun _ => false) = ket (flipAll [3] (setQ 2 true fun _ => false)) := by simp [flipIf]
  rw [f0, f1] at hon
  have hv : valQ [2] (setQ 2 true fun _ => false) = 0 := on_iff.mp hon (setQ 2 true fun _ => false) (by
    rw [Finsupp.mem_support_iff, h_at, set_set, set_set, setQ_self 2 (fun _ => false) false rfl]
    simp only [Finsupp.smul_apply, Finsupp.add_apply, smul_eq_mul]
    have k1 : ket (fun _ => false) (fun _ => false) = 1 := Finsupp.single_eq_same
    have k2 : ket (flipAll [3] (setQ 2 true fun _ => false)) (fun _ => false) = 0 := Finsupp.single_eq_of_ne fun h => by simpa [flipAll] using congrFun h 3
    have k3 : ket (fun _ => false) (setQ 2 true fun _ => false) = 0 := Finsupp.single_eq_of_ne fun h => by simpa using congrFun h 2
    have k4 : ket (flipAll [3] (setQ 2 true fun _ => false)) (setQ 2 true fun _ => false) = 0 := Finsupp.single_eq_of_ne fun h => by simpa [flipAll] using congrFun h 3
    rw [k1, k2, k3, k4]
    have := sqrt_half_ne
    simpa using this)
  simp [valQ] at hv

end Verif.Props
