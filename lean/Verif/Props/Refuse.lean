import Verif.Props.Errors

/-!
# Properties C70 and C71: swaps and matrices under conditions

Both refuted. C70: a conditioned SWAP object is always refused with an error (its circuit calls `cnot` with several controls). C71:
a conditioned matrix object always panics (`todo!()`).
-/

namespace Verif.Props
open Classical RegOps CircuitBuilder Rooted

/-! ## objects refused at the root are refused inside all conditions -/

theorem tryCond_refused {k : ℕ} (cs : List Reg) (s : NB k) (hs : ctl s = some cs) (cr r : Reg) (c : CObj) (e : Fail) (hc : cr ≠ [])
    (h : ∀ (b : LocalBuilder) (cr : Reg), cr ≠ [] → LocalBuilder.tryCond cr r c b = .error e b) :
    ∃ s', Conditionable.tryCond cr r c s = .error e s' ∧ root s' = root s := by
  induction k generalizing cs cr with
  | zero => exact ⟨s, h s cr hc, rfl⟩
  | succ k ih =>
    obtain ⟨ccr, ps, e1, e2, e3, rfl⟩ := ctl_conditioned (β := NB k) hs
    obtain ⟨p', h1, h2⟩ := ih ps (Conditioned.parent (β := NB k) s) e3 (cr ++ ccr) (by simp [hc])
    refine ⟨(⟨p', none⟩ : Conditioned (NB k)), ?_, h2⟩
    show (do
      let ccr ← Conditioned.takeCr
      let cr' ← RegOps.mergeTwo cr ccr
      let (cr', r) ← Conditioned.onParent (Conditionable.tryCond cr' r c)
      match ← RegOps.splitRel cr' (List.range cr.length) with
      | .split cr ccr => do
        Conditioned.putCr ccr
        pure (cr, r)
      | .selected _ => throw .panic
      | .unselected _ => throw .panic : M (Conditioned (NB k)) (Reg × Reg)) s = _
    rw [bind_ok (Conditioned.takeCr_ok e1), LawfulReg.mergeTwo_eq _ _ (by simp [hc]), pure_bind]
    refine bind_err (β := Conditioned (NB k)) ?_
    unfold Conditioned.onParent
    simp only
    rw [h1]

theorem under_refused (s : LocalBuilder) (crs : List Reg) (r : Reg) (c : CObj) (e : Fail) (hne : crs ≠ []) (hc : ∀ c ∈ crs, c ≠ [])
    (h : ∀ (b : LocalBuilder) (cr : Reg), cr ≠ [] → LocalBuilder.tryCond cr r c b = .error e b) :
    under crs (applyCO r c) s = .error e s := by
  refine under_error crs _ s s _ ?_
  match crs, hne with
  | d :: cs, _ =>
    obtain ⟨p', h1, h2⟩ := tryCond_refused cs (stack cs s) (ctl_stack cs s fun d hd => hc d (by simp [hd])) d r c e (hc d (by simp)) h
    refine ⟨(⟨p', none⟩ : Conditioned (NB cs.length)), ?_, h2.trans (root_stack cs s)⟩
    have h3 : Conditioned.onParent (Conditionable.tryCond d r c) (⟨stack cs s, none⟩ : Conditioned (NB cs.length))
        = .error e ⟨p', none⟩ := by
      unfold Conditioned.onParent
      simp only
      rw [h1]
    have h4 : applyCO r c (⟨stack cs s, some d⟩ : Conditioned (NB cs.length)) = .error e ⟨p', none⟩ := by
      rw [applyCO_conditioned (β := NB cs.length) _ d r _ rfl]
      exact bind_err (β := Conditioned (NB cs.length)) h3
    exact h4

/-! ## C70 -/

/-- C70: a SWAP object on `2k` qubits under a condition exchanges the values of its two halves exactly if the condition holds -/
def C70_claim : Prop :=
  ∀ (ang : Rot → ℝ) (s : LocalBuilder) (cr ra rb : Reg) (L : List ℕ), cr ≠ [] → ra ≠ [] → ra.length = rb.length → Own s (cr ++ (ra ++ rb) ++ L) →
    Does ang (LocalBuilder.tryCond cr (ra ++ rb) ⟨2 * ra.length, .unitary .SWAP⟩) s (cr, ra ++ rb) (cr ++ (ra ++ rb) ++ L)
      (ctlW cr (gateW (ra ++ rb) (uMat ang (2 * ra.length) .SWAP)))

/-- the first step of the loop over the pairs of qubits fails, so the rest of the circuit is never reached -/
theorem tryCond_swap (b : LocalBuilder) (cr r : Reg) (n : ℕ) (hc : cr ≠ []) (hr : r ≠ []) (hn : r.Nodup) (h2 : r.length % 2 = 0) :
    LocalBuilder.tryCond cr r ⟨n, .unitary .SWAP⟩ b = .error .error b := by
  have hl := List.length_pos_iff.mpr hr
  have hcl := List.length_pos_iff.mpr hc
  have hgo : LocalBuilder.tryCond cr r ⟨n, .unitary .SWAP⟩ b = (do
    let rs ← splitAll r
    let (cr, ras, rbs) ← ((rs.take (r.length / 2)).zip (rs.drop (r.length / 2))).foldlM LocalBuilder.condSwapStep (cr, [], [])
    let m ← mergeRegisters (ras ++ rbs)
    let r ← unwrapO m
    pure (cr, r) : M LocalBuilder (Reg × Reg)) b := by
    show (do
      if r.length % 2 ≠ 0 then throw .panic
      let rs ← splitAll r
      let (cr, ras, rbs) ← ((rs.take (r.length / 2)).zip (rs.drop (r.length / 2))).foldlM LocalBuilder.condSwapStep (cr, [], [])
      let m ← mergeRegisters (ras ++ rbs)
      let r ← unwrapO m
      pure (cr, r) : M LocalBuilder (Reg × Reg)) b = _
    rw [if_neg (by omega)]
  rw [hgo, splitAll_eq r hr hn, pure_bind]
  refine bind_err (β := LocalBuilder) ?_
  generalize hz : ((r.map fun q => [q]).take (r.length / 2)).zip ((r.map fun q => [q]).drop (r.length / 2)) = z
  have hzl : z.length = r.length / 2 := by
    rw [← hz]
    simp only [List.length_zip, List.length_take, List.length_drop, List.length_map]
    omega
  match z, hzl with
  | [], hzl => simp only [List.length_nil] at hzl; omega
  | p :: z, _ =>
    rw [List.foldlM_cons]
    refine bind_err (β := LocalBuilder) ?_
    have hp : p.1 ≠ [] := by
      have h3 : p ∈ ((r.map fun q => [q]).take (r.length / 2)).zip ((r.map fun q => [q]).drop (r.length / 2)) := by rw [hz]; simp
      obtain ⟨q, -, h4⟩ := List.mem_map.mp (List.mem_of_mem_take (List.of_mem_zip (a := p.1) (b := p.2) h3).1)
      rw [← h4]
      simp
    unfold LocalBuilder.condSwapStep
    rw [LawfulReg.mergeTwo_eq _ _ (by simp [hc]), pure_bind]
    refine bind_err (β := LocalBuilder) ?_
    refine C54_cnot (k := 0) b (cr ++ p.1) p.2 ?_
    have := List.length_pos_iff.mpr hp
    rw [List.length_append]
    omega

/-- A SWAP object on any even number of qubits is refused inside any conditions, and nothing is added to the circuit. -/
theorem C70_always_error (s : LocalBuilder) (crs : List Reg) (r : Reg) (n : ℕ) (hne : crs ≠ []) (hc : ∀ c ∈ crs, c ≠ []) (hr : r ≠ [])
    (hn : r.Nodup) (h2 : r.length % 2 = 0) : under crs (applyCO r ⟨n, .unitary .SWAP⟩) s = .error .error s :=
  under_refused s crs r _ _ hne hc fun b cr hcr => tryCond_swap b cr r n hcr hr hn h2

/-- On an odd number of qubits it panics. -/
theorem C70_odd (s : LocalBuilder) (crs : List Reg) (r : Reg) (n : ℕ) (hne : crs ≠ []) (hc : ∀ c ∈ crs, c ≠ []) (h2 : r.length % 2 ≠ 0) :
    under crs (applyCO r ⟨n, .unitary .SWAP⟩) s = .error .panic s :=
  under_refused s crs r _ _ hne hc fun b cr _ => by
    show (do
      if r.length % 2 ≠ 0 then throw .panic
      let rs ← splitAll r
      let (cr, ras, rbs) ← ((rs.take (r.length / 2)).zip (rs.drop (r.length / 2))).foldlM LocalBuilder.condSwapStep (cr, [], [])
      let m ← mergeRegisters (ras ++ rbs)
      let r ← unwrapO m
      pure (cr, r) : M LocalBuilder (Reg × Reg)) b = _
    rw [if_pos h2]
    rfl

theorem C70_refuted : ¬ C70_claim := by
  intro h
  obtain ⟨s', h1, -⟩ := h (fun _ => 0) threeQubits [0] [1] [2] [] (by simp) (by simp) rfl threeQubits_own
  have h2 := tryCond_swap threeQubits [0] ([1] ++ [2]) (2 * [1].length) (by simp) (by simp) (by decide) rfl
  rw [h2] at h1
  cases h1

theorem readQ_map (idx : List ℕ) (x : Asg) : readQ idx x = (idx.map x).foldl (fun a v => 2 * a + v.toNat) 0 := by
  rw [List.foldl_map]
  rfl

theorem readQ_swapR (ra rb : Reg) (hl : ra.length = rb.length) (hn : (ra ++ rb).Nodup) (x : Asg) :
    readQ (ra ++ rb) (swapR ra rb x) = readQ (rb ++ ra) x := by
  rw [readQ_map, readQ_map]
  congr 1
  rw [List.map_append, List.map_append]
  congr 1
  · refine List.ext_getElem (by simp [hl]) fun i h1 h2 => ?_
    rw [List.getElem_map, List.getElem_map]
    exact (swapR_get ra rb hl hn x i (by simpa using h1)).1
  · refine List.ext_getElem (by simp [hl]) fun i h1 h2 => ?_
    rw [List.getElem_map, List.getElem_map]
    exact (swapR_get ra rb hl hn x i (by simpa using h2)).2

theorem readQ_append (a b : List ℕ) (x : Asg) : readQ (a ++ b) x = readQ a x * 2 ^ b.length + readQ b x := by
  induction b using List.reverseRecOn with
  | nil => simp [readQ]
  | append_singleton b q ih =>
    rw [← List.append_assoc, readQ_snoc, ih, readQ_snoc, List.length_append, List.length_singleton, pow_succ]
    ring

/-- The SWAP object exchanges the values of its two halves. -/
theorem C70_object (ang : Rot → ℝ) (ra rb : Reg) (hl : ra.length = rb.length) (hn : (ra ++ rb).Nodup) :
    ∃ f : Asg → Asg, (∀ x, gateW (ra ++ rb) (uMat ang (2 * ra.length) .SWAP) (ket x) = ket (f x)) ∧
      ∀ x, (∀ i (h : i < ra.length), f x ra[i] = x (rb[i]'(by omega)) ∧ f x (rb[i]'(by omega)) = x ra[i]) ∧
        ∀ q, q ∉ ra → q ∉ rb → f x q = x q := by
  refine ⟨swapR ra rb, fun x => ?_, fun x => ⟨fun i hi => swapR_get ra rb hl hn x i hi, fun q => swapR_not_mem ra rb x q⟩⟩
  have e1 : readQ (ra ++ rb) x % 2 ^ (2 * ra.length / 2) * 2 ^ (2 * ra.length / 2) + readQ (ra ++ rb) x / 2 ^ (2 * ra.length / 2)
      = readQ (ra ++ rb) (swapR ra rb x) := by
    have h1 := readQ_lt ra x
    have h2 := readQ_lt rb x
    rw [readQ_swapR ra rb hl hn, readQ_append, readQ_append, show 2 * ra.length / 2 = rb.length by omega, hl, Nat.mul_add_mod_self_right,
      Nat.mod_eq_of_lt h2, mul_comm (readQ ra x), Nat.mul_add_div (by positivity), Nat.div_eq_of_lt h2, Nat.add_zero]
  rw [gateW_ket]
  unfold uMat
  simp only [e1]
  rw [Finset.sum_eq_single (readQ (ra ++ rb) (swapR ra rb x))]
  · rw [if_pos rfl, one_smul]
    congr 1
    refine writeQ_eq_of_agree _ _ _ fun q hq => ?_
    rw [List.mem_append, not_or] at hq
    first
      | exact swapR_not_mem ra rb x q hq.1 hq.2
      | exact (swapR_not_mem ra rb x q hq.1 hq.2).symm
  · intro r _ hr
    rw [if_neg hr, zero_smul]
  · intro h
    exact absurd (Finset.mem_range.mpr (readQ_lt _ _)) h

/-- Proved part of C70: the `swap` method under a condition does what is claimed of the object. -/
theorem C70_method_partial (ang : Rot → ℝ) (s : LocalBuilder) (cr ra rb : Reg) (L : List ℕ) (hc : cr ≠ []) (hr : ra ≠ []) (hl : ra.length = rb.length)
    (ho : Own s (cr ++ (ra ++ rb) ++ L)) :
    Does ang (Conditioned.conditioned cr (swap ra rb)) s ((ra, rb), cr) (cr ++ (ra ++ rb) ++ L)
      (ctlW cr (gateW (ra ++ rb) (uMat ang (2 * ra.length) .SWAP))) := by
  have hn : (ra ++ rb).Nodup := (List.nodup_append.mp (List.nodup_append.mp ho.left).1).2.1
  obtain ⟨f, h1, h2⟩ := C37_swap ang s cr ra rb L hc hr hl ho
  obtain ⟨g, h3, h4⟩ := C70_object ang ra rb hl hn
  have hfg : ∀ x, g x = f x := fun x => by
    funext q
    by_cases ha : q ∈ ra
    · obtain ⟨i, hi, rfl⟩ := List.getElem_of_mem ha
      rw [((h2 x).1 i hi).1, ((h4 x).1 i hi).1]
    · by_cases hb : q ∈ rb
      · obtain ⟨i, hi, rfl⟩ := List.getElem_of_mem hb
        rw [((h2 x).1 i (by omega)).2, ((h4 x).1 i (by omega)).2]
      · rw [(h2 x).2 q ha hb, (h4 x).2 q ha hb]
  refine h1.congrU fun x _ => ?_
  unfold ctlW
  rw [h3, hfg]
  split <;> rfl

example : under [[0], [1, 2]] (applyCO [3, 4, 5, 6] ⟨4, .unitary .SWAP⟩) sevenQubits = .error .error sevenQubits :=
  C70_always_error sevenQubits [[0], [1, 2]] [3, 4, 5, 6] 4 (by simp) (by simp) (by simp) (by decide) rfl
example (ang : Rot → ℝ) := C70_method_partial ang fiveQubits [1] [0] [2] [3] (by simp) (by simp) rfl ⟨by simp [fiveQubits], by decide, by decide⟩
example (ang : Rot → ℝ) := C70_object ang [4, 1] [0, 7] rfl (by decide)
example := C70_odd sevenQubits [[0], [1, 2]] [3, 4, 5] 4 (by simp) (by simp) (by simp)

/-! ## C71 -/

/-- C71: a matrix given for one qubit acts under a condition as the controlled matrix, or is refused with an error -/
def C71_claim : Prop :=
  ∀ (ang : Rot → ℝ) (s : LocalBuilder) (cr : Reg) (q : ℕ) (d : List ℂ) (L : List ℕ), cr ≠ [] → d.length = 4 → Own s (cr ++ [q] ++ L) →
    Does ang (LocalBuilder.tryCond cr [q] ⟨1, .unitary (.MAT d)⟩) s (cr, [q]) (cr ++ [q] ++ L) (ctlW cr (gateW [q] (uMat ang 1 (.MAT d)))) ∨
    LocalBuilder.tryCond cr [q] ⟨1, .unitary (.MAT d)⟩ s = .error .error s

/-- A matrix object panics inside any conditions, whatever the matrix. -/
theorem C71_panics_partial (s : LocalBuilder) (crs : List Reg) (r : Reg) (n : ℕ) (d : List ℂ) (hne : crs ≠ []) (hc : ∀ c ∈ crs, c ≠ []) :
    under crs (applyCO r ⟨n, .unitary (.MAT d)⟩) s = .error .panic s :=
  under_refused s crs r _ _ hne hc fun _ _ _ => rfl

theorem C71_refuted : ¬ C71_claim := by
  intro h
  rcases h (fun _ => 0) threeQubits [0] 1 [1, 0, 0, 1] [2] (by simp) rfl ⟨by simp [threeQubits], by decide, by decide⟩ with ⟨s', h1, -⟩ | h1
  · cases h1
  · cases h1

example := C71_panics_partial sevenQubits [[0], [1, 2]] [3, 4] 2 [] (by simp) (by simp)

end Verif.Props
