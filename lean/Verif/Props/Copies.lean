import Verif.Spec.Copies
import Verif.Props.Signal

/-!
# Property C136: a copied register and its copy

Measured, both registers always give the same outcome, with the probabilities of the copied register.
-/

namespace Verif.Props
open Complex

theorem acts_keep {rs : List Reg} (hn : rs.flatten.Nodup) {j : ℕ} (as : List Act) (hT : ∀ a ∈ as, a.Takes rs) (hs : ∀ a ∈ as, a.Spares j) (ms : List ℕ) {ψ : Wave}
    (h : On {y | ∀ q ∈ rs.getD j [], y q = false} ψ) : On {y | ∀ q ∈ rs.getD j [], y q = false} (actsW rs as ms ψ) := by
  induction as generalizing ms ψ with
  | nil => exact h
  | cons a as ih =>
    have ih := @ih (fun b hb => hT b (by simp [hb])) (fun b hb => hs b (by simp [hb]))
    have h1 := hT a (by simp)
    have h2 := hs a (by simp)
    cases a with
    | run p =>
      rw [acts_run]
      refine ih _ (h.map _ fun x hx => ?_)
      rw [lift_ket]
      exact (keeps_unused h2 h1 hn x).mono fun y hy q hq => (hy q hq).trans (hx q hq)
    | measure i =>
      cases ms with
      | nil => exact Submodule.zero_mem _
      | cons m ms => rw [acts_measure]; exact ih _ (h.proj _ _)

theorem valQ_pairs (a b : Reg) (hl : a.length = b.length) (x y : Asg) (h : ∀ k < a.length, x (b.getD k 0) = y (a.getD k 0)) : valQ b x = valQ a y := by
  induction a generalizing b with
  | nil => rw [List.length_eq_zero_iff.mp hl.symm]; rfl
  | cons p a ih =>
    match b, hl with
    | q :: b, hl =>
      have h0 : x q = y p := h 0 (by simp)
      rw [valQ, valQ, h0, ih b (by simpa using hl) fun k hk => h (k + 1) (by simpa using hk)]

theorem copy_vals {a b : Reg} (hl : a.length = b.length) (hn : (a ++ b).Nodup) {x : Asg} (hx : ∀ q ∈ b, x q = false) : valQ b (xorMap a b x) = valQ a (xorMap a b x) := by
  refine valQ_pairs a b hl _ _ fun k hk => ?_
  have hb : k < b.length := hl ▸ hk
  have hd := List.disjoint_of_nodup_append hn
  have nb := (List.nodup_append.mp hn).2.1
  rw [List.getD_eq_getElem _ _ hk, List.getD_eq_getElem _ _ hb, xorMap, if_pos (List.getElem_mem hb), hx _ (List.getElem_mem hb), nb.idxOf_getElem, xorMap,
    if_neg fun h => hd (List.getElem_mem hk) h, Bool.false_xor, List.getD_eq_getElem _ _ hk]

theorem copyTo_wave (i j : ℕ) (rs : List Reg) (x : Asg) : (copyTo i j).wave false rs x = ket (xorMap (rs.getD i []) (rs.getD j []) x) := by
  simp only [copyTo, Prog.wave, Lines.wave, List.map_cons, List.map_nil, groupReg_all, Method.wave, lift_eq]
  exact LinearMap.congr_fun lift_ket_id _

/-- C136: in a main program whose steps so far leave register `j`, initially 0, alone, register `i` is copied to register `j`, and both are measured. Two different outcomes have probability 0, and the
same outcome twice has the probability the outcome has without copying, together with all earlier outcomes. -/
theorem C136_copies {sizes : List ℕ} (hpos : ∀ k ∈ sizes, 0 < k) (pre : List Act) (i j : ℕ) (hT : ∀ a ∈ pre ++ [.run (copyTo i j), .measure i, .measure j], a.Takes (blocks 0 sizes))
    (hs : ∀ a ∈ pre, a.Spares j) :
    ∃ S S', mainProg sizes (pre ++ [.run (copyTo i j), .measure i, .measure j]) LocalBuilder.default = .ok (blocks 0 sizes, List.range (measures pre + 2)) S ∧
      mainProg sizes (pre ++ [.measure i]) LocalBuilder.default = .ok (blocks 0 sizes, List.range (measures pre + 1)) S' ∧
      ∀ it : List (Reg × ℕ), (∀ e ∈ it, e.1 ∈ blocks 0 sizes) → (∀ q ∈ (blocks 0 sizes).getD j [], initAsg it q = false) → ∀ ms : List ℕ, ms.length = measures pre → ∀ u v : ℕ,
        outcomeProb S it (ms ++ [u, v]) = if u = v then outcomeProb S' it (ms ++ [u]) else 0 := by
  have hT' : ∀ a ∈ pre ++ [.measure i], a.Takes (blocks 0 sizes) := fun a ha => hT a (by
    simp only [List.mem_append, List.mem_cons, List.not_mem_nil, or_false] at ha ⊢
    tauto)
  have hn := blocks_apart sizes
  have hC : (copyTo i j).Takes false (blocks 0 sizes) := hT (.run (copyTo i j)) (by simp)
  obtain ⟨S, h⟩ := C106_runs sizes hpos _ hT
  obtain ⟨S', h'⟩ := C106_runs sizes hpos _ hT'
  refine ⟨S, S', by rw [h, measures_append]; rfl, by rw [h', measures_append]; rfl, fun it hi h0 ms hm u v => ?_⟩
  rw [C106_born hpos hT h it hi _ (by rw [List.length_append, measures_append, hm]; rfl), C106_born hpos hT' h' it hi _ (by rw [List.length_append, measures_append, hm]; rfl),
    act_append _ _ _ _ _ hm, act_append _ _ _ _ _ hm]
  have hψ := acts_keep hn pre (fun a ha => hT a (by simp [ha])) hs ms (On.ket (S := {y | ∀ q ∈ (blocks 0 sizes).getD j [], y q = false}) h0)
  generalize actsW (blocks 0 sizes) pre ms (ket (initAsg it)) = ψ at hψ ⊢
  generalize blocks 0 sizes = rs at hn hC hψ ⊢
  rw [acts_run, acts_measure, acts_measure, acts_measure, actsW, actsW]
  have hC' := hC
  unfold copyTo at hC'
  simp only [Prog.Takes, Lines.Takes, List.map_cons, List.map_nil, groupReg_all, Method.Takes] at hC'
  obtain ⟨-, v1, ⟨-, hl⟩, -⟩ := hC'
  have hnd := (groups_nodup rs hn _ v1).1
  simp only [List.map_cons, List.map_nil, groupReg_all, List.flatten_cons, List.flatten_nil, List.append_nil] at hnd
  have hd := List.disjoint_of_nodup_append hnd
  have hk : KeepsReg (rs.getD i []) ((copyTo i j).wave false rs) := fun x => by
    rw [copyTo_wave]
    exact On.ket (S := {y | ∀ q ∈ rs.getD i [], y q = x q}) fun q hq => by rw [xorMap, if_neg fun h => hd hq h]
  have hon : On {y | valQ (rs.getD j []) y = valQ (rs.getD i []) y} (lift ((copyTo i j).wave false rs) ψ) := hψ.map _ fun x hx => by
    rw [lift_ket, copyTo_wave]
    exact On.ket (S := {y | valQ (rs.getD j []) y = valQ (rs.getD i []) y}) (copy_vals hl hnd hx)
  have hon2 : On {y | valQ (rs.getD j []) y = u} (projW (rs.getD i []) u (lift ((copyTo i j).wave false rs) ψ)) := on_iff.mpr fun y hy => by
    have h1 := on_iff.mp (hon.proj (rs.getD i []) u) y hy
    have h2 : valQ (rs.getD i []) y = u := by
      by_contra hne
      rw [Finsupp.mem_support_iff, projW_apply, if_neg hne] at hy
      exact hy rfl
    exact Eq.trans h1 h2
  split
  · rename_i huv
    subst huv
    rw [projW_on hon2, hk.proj, ← lift_eq, C107_unitary _ rs hC hn]
  · rename_i huv
    have hz : projW (rs.getD j []) v (projW (rs.getD i []) u (lift ((copyTo i j).wave false rs) ψ)) = 0 := by
      ext y
      rw [projW_apply]
      split
      · rename_i hy
        by_contra hne
        exact huv ((on_iff.mp hon2 y (Finsupp.mem_support_iff.mpr hne)).symm.trans hy)
      · rfl
    rw [hz, normW_zero, ENNReal.ofReal_zero]

theorem valQ_bits (r : Reg) (x y : Asg) (h : valQ r x = valQ r y) : ∀ q ∈ r, x q = y q := by
  induction r with
  | nil => simp
  | cons p r ih =>
    rw [valQ, valQ] at h
    have h1 : (x p).toNat < 2 := Bool.toNat_lt _
    have h2 : (y p).toNat < 2 := Bool.toNat_lt _
    intro q hq
    rcases List.mem_cons.mp hq with rfl | hq
    · cases e1 : x q <;> cases e2 : y q <;> simp_all <;> omega
    · exact ih (by omega) q hq

theorem normW_flip (c : Reg) (ψ : Wave) : normW (flipL c ψ) = normW ψ := by
  unfold normW Finsupp.sum
  refine Finset.sum_nbij' (flipAll c) (flipAll c) ?_ ?_ (fun x _ => flipAll_flipAll c x) (fun x _ => flipAll_flipAll c x) fun x _ => by rw [flipL_apply]
  · intro x hx
    rw [Finsupp.mem_support_iff, flipL_apply] at hx
    exact Finsupp.mem_support_iff.mpr hx
  · intro x hx
    rw [Finsupp.mem_support_iff, flipL_apply, flipAll_flipAll]
    exact Finsupp.mem_support_iff.mp hx

theorem flip_passes {rs : List Reg} (hn : rs.flatten.Nodup) {j : ℕ} {c : Reg} (hc : ∀ q ∈ c, q ∈ rs.getD j []) (a : Act) (hT : a.Takes rs) (hi : a.Ignores j) : Passes rs (flipL c) a := by
  cases a with
  | run p =>
    intro ψ
    have : lift (p.wave false rs) ∘ₗ flipL c = flipL c ∘ₗ lift (p.wave false rs) := wave_ext fun x => by
      rw [LinearMap.comp_apply, LinearMap.comp_apply, flipL_ket, lift_ket, lift_ket]
      exact (p.localOn false rs hT hn).blind c (fun q hq ⟨k, h1, h2⟩ => hi (by rwa [mem_unique hn (hc q hq) h2])) x
    exact LinearMap.congr_fun this ψ
  | measure k =>
    intro m ψ
    have : projL (rs.getD k []) m ∘ₗ flipL c = flipL c ∘ₗ projL (rs.getD k []) m := wave_ext fun x => by
      have hv : valQ (rs.getD k []) (flipAll c x) = valQ (rs.getD k []) x := valQ_congr _ _ _ fun q hq => flipAll_not_mem _ _ _ fun h => hi (mem_unique hn hq (hc q h))
      rw [LinearMap.comp_apply, LinearMap.comp_apply, flipL_ket, projL_ket, projL_ket, hv]
      split
      · rw [flipL_ket]
      · rw [map_zero]
    exact LinearMap.congr_fun this ψ

/-- C136: a measurement whose outcome is not looked at can be replaced by a copy. In a main program whose steps so far leave register `j`, initially 0, alone, and whose steps afterwards have nothing to do
with it, the outcomes of the other measurements have the same probabilities if register `i` is measured, in the middle, as if it is copied to register `j`. -/
theorem C136_instead {sizes : List ℕ} (hpos : ∀ k ∈ sizes, 0 < k) (pre post : List Act) (i j : ℕ) (hT : ∀ a ∈ pre ++ .run (copyTo i j) :: post, a.Takes (blocks 0 sizes))
    (hs : ∀ a ∈ pre, a.Spares j) (hp : ∀ a ∈ post, a.Ignores j) :
    ∃ S S', mainProg sizes (pre ++ .run (copyTo i j) :: post) LocalBuilder.default = .ok (blocks 0 sizes, List.range (measures pre + measures post)) S ∧
      mainProg sizes (pre ++ .measure i :: post) LocalBuilder.default = .ok (blocks 0 sizes, List.range (measures pre + (measures post + 1))) S' ∧
      ∀ it : List (Reg × ℕ), (∀ e ∈ it, e.1 ∈ blocks 0 sizes) → (∀ q ∈ (blocks 0 sizes).getD j [], initAsg it q = false) →
        ∀ ms ns : List ℕ, ms.length = measures pre → ns.length = measures post →
          outcomeProb S it (ms ++ ns) = ∑ u ∈ Finset.range (2 ^ ((blocks 0 sizes).getD i []).length), outcomeProb S' it (ms ++ u :: ns) := by
  have hn := blocks_apart sizes
  have hC : (copyTo i j).Takes false (blocks 0 sizes) := hT (.run (copyTo i j)) (by simp)
  have hC' := hC
  unfold copyTo at hC'
  simp only [Prog.Takes, Lines.Takes, List.map_cons, List.map_nil, groupReg_all, Method.Takes] at hC'
  obtain ⟨-, v1, ⟨-, hl⟩, -⟩ := hC'
  have hT' : ∀ a ∈ pre ++ .measure i :: post, a.Takes (blocks 0 sizes) := fun a ha => by
    simp only [List.mem_append, List.mem_cons] at ha
    rcases ha with ha | rfl | ha
    · exact hT a (by simp [ha])
    · exact v1.reg [(i, none)] (by simp) (i, none) (by simp)
    · exact hT a (by simp [ha])
  obtain ⟨S, h⟩ := C106_runs sizes hpos _ hT
  obtain ⟨S', h'⟩ := C106_runs sizes hpos _ hT'
  refine ⟨S, S', by rw [h, measures_append]; rfl, by rw [h', measures_append]; rfl, fun it hi h0 ms ns hm hns => ?_⟩
  rw [C106_born hpos hT h it hi _ (by rw [List.length_append, measures_append, hm, hns]; rfl), act_append _ _ _ _ _ hm,
    Finset.sum_congr rfl fun u _ => by rw [C106_born hpos hT' h' it hi (ms ++ u :: ns) (by rw [List.length_append, measures_append, hm, List.length_cons, hns]; rfl), act_append _ _ _ _ _ hm]]
  have hψ := acts_keep hn pre (fun a ha => hT a (by simp [ha])) hs ms (On.ket (S := {y | ∀ q ∈ (blocks 0 sizes).getD j [], y q = false}) h0)
  have hpT : ∀ a ∈ post, a.Takes (blocks 0 sizes) := fun a ha => hT a (by simp [ha])
  have hjl : j < (blocks 0 sizes).length := v1.reg [(j, none)] (by simp) (j, none) (by simp)
  generalize actsW (blocks 0 sizes) pre ms (ket (initAsg it)) = ψ at hψ ⊢
  generalize blocks 0 sizes = rs at hn hC hψ hpT hl v1 hjl ⊢
  have hnd := (groups_nodup rs hn _ v1).1
  simp only [List.map_cons, List.map_nil, groupReg_all, List.flatten_cons, List.flatten_nil, List.append_nil] at hnd
  have hd := List.disjoint_of_nodup_append hnd
  rw [acts_run, ← unseen rs hn [.measure j] post (fun b hb => by obtain rfl := List.mem_singleton.mp hb; exact hjl) hpT (by
    intro b hb a ha
    obtain rfl := List.mem_singleton.mp hb
    have := hp a ha
    cases a with
    | run p => exact fun h => absurd h this
    | measure k => trivial)]
  simp only [overOutcomes, List.cons_append, List.nil_append, acts_measure]
  rw [← hl]
  refine Finset.sum_congr rfl fun u _ => ?_
  have e1 : projW (rs.getD j []) u (lift ((copyTo i j).wave false rs) ψ) = lift ((copyTo i j).wave false rs) (projW (rs.getD i []) u ψ) := by
    have : (projL (rs.getD j []) u ∘ₗ lift ((copyTo i j).wave false rs)) ψ = (lift ((copyTo i j).wave false rs) ∘ₗ projL (rs.getD i []) u) ψ := hψ.agree fun x hx => by
      have hv : valQ (rs.getD i []) (xorMap (rs.getD i []) (rs.getD j []) x) = valQ (rs.getD i []) x := valQ_congr _ _ _ fun q hq => by rw [xorMap, if_neg fun h => hd hq h]
      rw [LinearMap.comp_apply, LinearMap.comp_apply, lift_ket, copyTo_wave, projL_ket, projL_ket, copy_vals hl hnd hx, hv]
      split
      · rw [lift_ket, copyTo_wave]
      · rw [map_zero]
    exact this
  rw [e1]
  have hon : On {y | valQ (rs.getD i []) y = u} (projW (rs.getD i []) u ψ) := on_iff.mpr fun y hy => by
    show valQ (rs.getD i []) y = u
    by_contra hne
    rw [Finsupp.mem_support_iff, projW_apply, if_neg hne] at hy
    exact hy rfl
  by_cases ht : ∃ t, valQ (rs.getD i []) t = u
  · obtain ⟨t, ht⟩ := ht
    have e2 : lift ((copyTo i j).wave false rs) (projW (rs.getD i []) u ψ) =
        flipL ((rs.getD j []).filter fun q => t ((rs.getD i []).getD ((rs.getD j []).idxOf q) 0)) (projW (rs.getD i []) u ψ) := hon.agree fun x hx => by
      rw [lift_ket, copyTo_wave, flipL_ket, flip_xor]
      congr 1
      funext q
      unfold xorMap
      split
      · rename_i hq
        have hlt : (rs.getD j []).idxOf q < (rs.getD i []).length := hl ▸ List.idxOf_lt_length_of_mem hq
        have hmem : (rs.getD i []).getD ((rs.getD j []).idxOf q) 0 ∈ rs.getD i [] := by rw [List.getD_eq_getElem _ _ hlt]; exact List.getElem_mem _
        rw [valQ_bits _ x t (Eq.trans hx ht.symm) _ hmem]
      · rfl
    rw [e2, passes_acts (map_zero _) post (fun a ha => flip_passes hn (fun q hq => (List.mem_filter.mp hq).1) a (hpT a ha) (hp a ha)), normW_flip]
  · have hz : projW (rs.getD i []) u ψ = 0 := by
      ext y
      rw [projW_apply, if_neg fun h => ht ⟨y, h⟩]
      rfl
    rw [hz, map_zero]

/-- example: H on the two qubits of register 0 and a measurement of register 2, which H on register 2 prepared; then register 0 is copied to register 1 -/
example : (∀ a ∈ [Act.run (clonePrep 0 (some .h)), .run (clonePrep 2 (some .h)), .measure 2] ++ [.run (copyTo 0 1), .measure 0, .measure 1], a.Takes (blocks 0 [2, 2, 1])) ∧
    ∀ a ∈ [Act.run (clonePrep 0 (some .h)), .run (clonePrep 2 (some .h)), .measure 2], a.Spares 1 := by
  have hb : blocks 0 [2, 2, 1] = [[0, 1], [2, 3], [4]] := by decide
  rw [hb]
  constructor
  · intro a ha
    simp only [List.cons_append, List.nil_append, List.mem_cons, List.not_mem_nil, or_false] at ha
    rcases ha with rfl | rfl | rfl | rfl | rfl | rfl
    · exact clonePrep_takes (by simp) (by simp) _
    · exact clonePrep_takes (by simp) (by simp) _
    · show 2 < 3; omega
    · show (copyTo 0 1).Takes false [[0, 1], [2, 3], [4]]
      have v1 : ValidGroups [[0, 1], [2, 3], [4]] [[(0, none)], [(1, none)]] := ⟨by decide, by decide, by decide, by unfold HasPos; decide⟩
      simp only [copyTo, Prog.Takes, Lines.Takes, List.map_cons, List.map_nil, groupReg_all, Method.Takes]
      exact ⟨by decide, v1, by simp, trivial⟩
    · show 0 < 3; omega
    · show 1 < 3; omega
  · intro a ha
    simp only [List.mem_cons, List.not_mem_nil, or_false] at ha
    rcases ha with rfl | rfl | rfl <;> simp [Act.Spares, clonePrep, Prog.Uses, Lines.Uses]

/-- example: a step afterwards that has nothing to do with register 1: H again on register 0, and its measurement -/
example : ∀ a ∈ [Act.run (clonePrep 0 (some .h)), .measure 0], a.Ignores 1 := by
  intro a ha
  simp only [List.mem_cons, List.not_mem_nil, or_false] at ha
  rcases ha with rfl | rfl <;> simp [Act.Ignores, clonePrep, Prog.Uses, Lines.Uses]

end Verif.Props
