import Verif.Spec.Examples
import Verif.Model.Examples
import Verif.Props.Gates
import Verif.Props.Sub
import Verif.Props.Program
import Verif.Props.Examples
import Verif.Proofs.CondAddInv
import Verif.Proofs.Times

/-!
# Property C82: `gamma` and `gamma_inv`

The function of the documentation of the macros `program!` and `#[invert]`, and its generated inverse, on registers of
any sizes.
-/

namespace Verif.Props
open Complex Classical

/-- the factor that `toffoli` with `nc` controls gives to the states whose `nt` targets it flips, see C32 -/
noncomputable def tofC (nc nt : ℕ) : ℂ := if nc = 1 then 1 else (-I) ^ (nt - 1)

theorem tofC_ne (nc nt : ℕ) : tofC nc nt ≠ 0 := by
  unfold tofC
  split
  · exact one_ne_zero
  · exact pow_ne_zero _ (by simp)

/-- two flips, the second one (left out unless `skip`) under the condition made by the first -/
noncomputable def gammaU (skip : Bool) (ra rb : Reg) (x : Asg) : Wave :=
  if skip then lift (flipIf (tofC rb.length ra.length) rb ra) (flipIf (tofC ra.length rb.length) ra rb x)
  else flipIf (tofC ra.length rb.length) ra rb x

/-- the same backwards, with the inverse factors -/
noncomputable def gammaInvU (skip : Bool) (ra rb : Reg) (x : Asg) : Wave :=
  if skip then lift (flipIf (tofC ra.length rb.length)⁻¹ ra rb) (flipIf (tofC rb.length ra.length)⁻¹ rb ra x)
  else flipIf (tofC ra.length rb.length)⁻¹ ra rb x

theorem perm_swap (ra rb L : List ℕ) : (ra ++ rb ++ L).Perm (rb ++ ra ++ L) := List.perm_append_comm.append_right _

theorem gammaSkip_does (ang : Rot → ℝ) (skip : Bool) (s : LocalBuilder) (ra rb : Reg) (L : List ℕ) (ha : ra ≠ []) (hb : rb ≠ [])
    (ho : Own s (ra ++ rb ++ L)) : Does ang (gammaSkip skip [ra, rb]) s [ra, rb] (ra ++ rb ++ L) (gammaU skip ra rb) := by
  cases skip with
  | true =>
    refine (Does.bind (f := fun p : Reg × Reg => toffoli p.2 p.1 >>= fun p => pure [p.2, p.1]) (C32_toffoli_partial ang s ra rb L ha hb ho)
      fun s1 _ o1 => (?_ : Does ang _ _ _ _ (flipIf (tofC rb.length ra.length) rb ra))).congrU fun x _ => rfl
    refine (Does.bind (f := fun p : Reg × Reg => (pure [p.2, p.1] : M LocalBuilder (List Reg)))
      (C32_toffoli_partial ang s1 rb ra L hb ha (o1.perm (perm_swap _ _ _))) fun s2 _ o2 =>
        Does.pure (o2.perm (perm_swap _ _ _)) _).congrU fun x _ => ?_
    rw [lift_ket_id]
    rfl
  | false =>
    refine (Does.bind (f := fun p : Reg × Reg => (pure [p.1, p.2] : M LocalBuilder (List Reg)))
      (C32_toffoli_partial ang s ra rb L ha hb ho) fun s1 _ o1 => Does.pure o1 _).congrU fun x _ => ?_
    rw [lift_ket_id]
    rfl

theorem gamma_skip {β : Type} [TempBuilder β] (rs : List Reg) : (gamma rs : M β _) = gammaSkip true rs := by
  unfold gamma gammaSkip
  split <;> rfl

theorem flipIf_move (c : ℂ) (R : Reg) (hn : R.Nodup) (cr r : List ℕ) (hc : ∀ i ∈ cr, i < R.length) (hr : ∀ i ∈ r, i < R.length)
    (x : Asg) : moveW R (flipIf c cr r) x = flipIf c (at' R cr) (at' R r) x := by
  have e1 : (∀ i ∈ cr, pull R x i = true) ↔ ∀ q ∈ at' R cr, x q = true := by
    unfold at'
    simp only [List.mem_map, forall_exists_index, and_imp, forall_apply_eq_imp_iff₂]
    refine forall₂_congr fun i hi => ?_
    unfold pull
    rw [if_pos (hc i hi)]
  have e2 : emb R x (flipAll r (pull R x)) = flipAll (at' R r) x := by
    funext q
    by_cases hq : q ∈ R
    · obtain ⟨k, hk, rfl⟩ := List.mem_iff_getElem.mp hq
      have h1 := emb_getD R hn x (flipAll r (pull R x)) k hk
      rw [List.getD_eq_getElem _ _ hk] at h1
      rw [h1]
      have h2 : k ∈ r ↔ R[k] ∈ at' R r := by
        unfold at'
        rw [List.mem_map]
        constructor
        · intro h
          exact ⟨k, h, List.getD_eq_getElem _ _ hk⟩
        · rintro ⟨i, hi, e⟩
          rw [List.getD_eq_getElem _ _ (hr i hi)] at e
          exact (hn.getElem_inj_iff).mp e ▸ hi
      have h3 : pull R x k = x R[k] := by
        unfold pull
        rw [if_pos hk, List.getD_eq_getElem _ _ hk]
      unfold flipAll
      by_cases h : k ∈ r
      · rw [if_pos h, if_pos (h2.mp h), h3]
      · rw [if_neg h, if_neg (fun e => h (h2.mpr e)), h3]
    · rw [emb_not_mem _ _ _ _ hq, flipAll_not_mem _ _ _ fun h => hq (at_mem R r hr q h)]
  rw [moveW_eq]
  unfold flipIf
  by_cases h : ∀ i ∈ cr, pull R x i = true
  · rw [if_pos h, if_pos (e1.mp h), map_smul, embW_ket, e2]
  · rw [if_neg h, if_neg fun e => h (e1.mpr e), embW_ket, emb_pull]

theorem flipIf_flipIf (c d : ℂ) (hcd : c * d = 1) (cr r : Reg) (h : ∀ q ∈ cr, q ∉ r) (x : Asg) :
    lift (flipIf c cr r) (flipIf d cr r x) = ket x := by
  unfold flipIf
  by_cases h1 : ∀ q ∈ cr, x q = true
  · rw [if_pos h1, map_smul, lift_ket, if_pos fun q hq => by rw [flipAll_not_mem _ _ _ (h q hq)]; exact h1 q hq,
      flipAll_flipAll, smul_smul, mul_comm, hcd, one_smul]
  · rw [if_neg h1, lift_ket, if_neg h1]

theorem flipIf_low (c : ℂ) (cr r : Reg) (n : ℕ) (hr : ∀ q ∈ r, q < n) (z : Asg) (hz : z ∈ Low n) : On (Low n) (flipIf c cr r z) := by
  unfold flipIf
  split
  · refine (On.ket ?_).smul _
    intro i hi
    rw [flipAll_not_mem _ _ _ fun h => by have := hr i h; omega]
    exact hz i hi
  · exact On.ket hz

theorem at_left (ra rb : Reg) : at' (ra ++ rb) (List.range' 0 ra.length) = ra := by
  unfold at'
  refine List.ext_getElem (by simp) fun i h1 h2 => ?_
  simp only [List.getElem_map, List.getElem_range']
  rw [show 0 + 1 * i = i by omega, List.getD_append _ _ _ _ h2, List.getD_eq_getElem _ _ h2]

theorem at_right (ra rb : Reg) : at' (ra ++ rb) (List.range' ra.length rb.length) = rb := by
  unfold at'
  refine List.ext_getElem (by simp) fun i h1 h2 => ?_
  simp only [List.getElem_map, List.getElem_range']
  rw [List.getD_append_right _ _ _ _ (by omega), show ra.length + 1 * i - ra.length = i by omega, List.getD_eq_getElem _ _ h2]

theorem range_left (k l : ℕ) : ∀ i ∈ List.range' 0 k, i < k + l := by
  intro i hi
  rw [List.mem_range'_1] at hi
  omega

theorem range_right (k l : ℕ) : ∀ i ∈ List.range' k l, i < k + l := by
  intro i hi
  rw [List.mem_range'_1] at hi
  omega

/-- carried out on other registers -/
theorem gammaU_move (skip : Bool) (ra rb : Reg) (hn : (ra ++ rb).Nodup) (x : Asg) :
    moveW (ra ++ rb) (gammaU skip (List.range' 0 ra.length) (List.range' ra.length rb.length)) x = gammaU skip ra rb x ∧
    moveW (ra ++ rb) (gammaInvU skip (List.range' 0 ra.length) (List.range' ra.length rb.length)) x = gammaInvU skip ra rb x := by
  have hl := range_left ra.length rb.length
  have hr := range_right ra.length rb.length
  rw [← List.length_append] at hl hr
  have m1 : ∀ c y, moveW (ra ++ rb) (flipIf c (List.range' 0 ra.length) (List.range' ra.length rb.length)) y = flipIf c ra rb y := by
    intro c y
    rw [flipIf_move c _ hn _ _ hl hr, at_left, at_right]
  have m2 : ∀ c y, moveW (ra ++ rb) (flipIf c (List.range' ra.length rb.length) (List.range' 0 ra.length)) y = flipIf c rb ra y := by
    intro c y
    rw [flipIf_move c _ hn _ _ hr hl, at_left, at_right]
  cases skip with
  | false =>
    unfold gammaU gammaInvU
    simp only [Bool.false_eq_true, if_false, List.length_range']
    exact ⟨m1 _ _, m1 _ _⟩
  | true =>
    unfold gammaU gammaInvU
    simp only [if_true, List.length_range']
    constructor
    · rw [← lift_move _ hn _ _ _ (flipIf_low _ _ _ _ hr _ (pull_low _ _)), m1,
        show moveW (ra ++ rb) (flipIf _ (List.range' ra.length rb.length) (List.range' 0 ra.length)) = _ from funext (m2 _)]
    · rw [← lift_move _ hn _ _ _ (flipIf_low _ _ _ _ hl _ (pull_low _ _)), m2,
        show moveW (ra ++ rb) (flipIf _ (List.range' 0 ra.length) (List.range' ra.length rb.length)) = _ from funext (m1 _)]

theorem gammaU_inv (skip : Bool) (ra rb : Reg) (hd : ∀ q ∈ ra, q ∉ rb) (x : Asg) :
    lift (gammaU skip ra rb) (gammaInvU skip ra rb x) = ket x ∧ lift (gammaInvU skip ra rb) (gammaU skip ra rb x) = ket x := by
  have c1 := mul_inv_cancel₀ (tofC_ne ra.length rb.length)
  have c2 := mul_inv_cancel₀ (tofC_ne rb.length ra.length)
  have d1 : ∀ c d, c * d = 1 → ∀ x, lift (flipIf c ra rb) (flipIf d ra rb x) = ket x := fun c d h => flipIf_flipIf c d h ra rb hd
  have d2 : ∀ c d, c * d = 1 → ∀ x, lift (flipIf c rb ra) (flipIf d rb ra x) = ket x :=
    fun c d h => flipIf_flipIf c d h rb ra fun q h1 h2 => hd q h2 h1
  cases skip with
  | false =>
    unfold gammaU gammaInvU
    simp only [Bool.false_eq_true, if_false]
    exact ⟨d1 _ _ c1 x, d1 _ _ (by rw [mul_comm]; exact c1) x⟩
  | true =>
    unfold gammaU gammaInvU
    simp only [if_true]
    constructor
    · rw [← lift_lift_eq, lift_lift_id (d1 _ _ c1), d2 _ _ c2]
    · rw [← lift_lift_eq, lift_lift_id (d2 _ _ (by rw [mul_comm]; exact c2)), d1 _ _ (by rw [mul_comm]; exact c1)]

theorem gammaSkip_uniform (ang : Rot → ℝ) (skip : Bool) (k l : ℕ) (hk : 0 < k) (hl : 0 < l) :
    Uniform ang (gammaSkip skip) [k, l] (gammaU skip (List.range' 0 k) (List.range' k l)) := by
  intro s rs L hrs ho
  match rs, hrs with
  | [ra, rb], hrs =>
    simp only [List.map_cons, List.map_nil, List.cons.injEq, and_true] at hrs
    obtain ⟨rfl, rfl⟩ := hrs
    simp only [List.flatten_cons, List.flatten_nil, List.append_nil] at ho ⊢
    refine (gammaSkip_does ang skip s ra rb L (List.length_pos_iff.mp hk) (List.length_pos_iff.mp hl) ho).congrU fun x _ => ?_
    exact ((gammaU_move skip ra rb (List.nodup_append.mp ho.left).1 x).1).symm

theorem two_own' (k l : ℕ) : Own ⟨[], k + l, [], 0⟩ (List.range' 0 k ++ List.range' k l ++ []) := by
  have : List.range' 0 k ++ List.range' k l ++ [] = List.range (k + l) := by
    rw [List.append_nil, show List.range' k l = List.range' (0 + k) l by rw [Nat.zero_add], List.range'_append_1, ← List.range_eq_range']
  rw [this]
  exact fresh_own _

/-- the circuit of `gamma` touches the last qubit -/
theorem gamma_touches (ang : Rot → ℝ) (skip : Bool) (k l : ℕ) (hk : 0 < k) (hl : 0 < l) :
    ∃ b : LocalBuilder, gammaSkip skip [List.range' 0 k, List.range' k l] (⟨[], k + l, [], 0⟩ : LocalBuilder) = .ok [List.range' 0 k, List.range' k l] b ∧
      ∃ e ∈ b.pipeline, k + l - 1 ∈ e.1 := by
  obtain ⟨b, h1, -, -, h4⟩ := gammaSkip_does ang skip ⟨[], k + l, [], 0⟩ (List.range' 0 k) (List.range' k l) []
    (by simp; omega) (by simp; omega) (two_own' k l)
  refine ⟨b, h1, ?_⟩
  obtain ⟨seg, g1, -, g3⟩ := h4.seg
  have hb : b.pipeline = seg := g1
  rw [hb]
  set x : Asg := fun q => decide (q < k) with hx
  have hclean : Clean ⟨[], k + l, [], 0⟩ x := by
    refine (fresh_clean _ _).mpr fun i hi => ?_
    simp [hx]; omega
  refine touched (ang := ang) (x := x) ?_
  rw [(g3 x hclean).1]
  have h1 : ∀ q ∈ List.range' 0 k, x q = true := by
    intro q hq
    rw [List.mem_range'_1] at hq
    simp [hx]; omega
  have hlast : k + l - 1 ∈ List.range' k l := by rw [List.mem_range'_1]; omega
  have hnl : k + l - 1 ∉ List.range' 0 k := by rw [List.mem_range'_1]; omega
  have hxl : x (k + l - 1) = false := by simp [hx]; omega
  intro hon
  have hon' := on_iff.mp hon
  have key : ∀ c : ℂ, c ≠ 0 → ∀ y : Asg, y (k + l - 1) = true → ¬ ∀ z ∈ (c • ket y).support, z (k + l - 1) = x (k + l - 1) := by
    intro c hc y hy h
    have := h y (by rw [Finsupp.mem_support_iff, Finsupp.smul_apply]; simp [ket, hc])
    rw [hy, hxl] at this
    cases this
  have e1 : flipIf (tofC (List.range' 0 k).length (List.range' k l).length) (List.range' 0 k) (List.range' k l) x =
      tofC (List.range' 0 k).length (List.range' k l).length • ket (flipAll (List.range' k l) x) := by
    unfold flipIf
    rw [if_pos h1]
  have f1 : flipAll (List.range' k l) x (k + l - 1) = true := by
    unfold flipAll
    rw [if_pos hlast, hxl]; rfl
  cases skip with
  | false =>
    unfold gammaU at hon'
    simp only [Bool.false_eq_true, if_false] at hon'
    rw [e1] at hon'
    exact key _ (tofC_ne _ _) _ f1 hon'
  | true =>
    unfold gammaU at hon'
    simp only [if_true] at hon'
    rw [e1, map_smul, lift_ket] at hon'
    unfold flipIf at hon'
    split at hon'
    · rw [smul_smul] at hon'
      refine key _ (mul_ne_zero (tofC_ne _ _) (tofC_ne _ _)) _ ?_ hon'
      rw [flipAll_not_mem _ _ _ hnl]; exact f1
    · exact key _ (tofC_ne _ _) _ f1 hon'

/-- C82: `gamma` and then its generated inverse, or the other way round, restore every state, on registers of all sizes and in
every builder, with or without the argument `skip`. -/
theorem C82_undo (ang : Rot → ℝ) (hang : ∀ ρ, ang (Rot.neg ρ) = -ang ρ) (skip : Bool) (k l : ℕ) (hk : 0 < k) (hl : 0 < l) :
    Undone ang (gammaSkip skip) [k, l] ∧ Undone ang gamma [k, l] := by
  have h : ∀ skip, Undone ang (gammaSkip skip) [k, l] := by
    intro skip
    refine C41_partial ang hang _ _ _ (by simp) (by simp [hk, hl]) (gammaSkip_uniform ang skip k l hk hl) ?_
    obtain ⟨b, h1, e, he, hq⟩ := gamma_touches ang skip k l hk hl
    refine ⟨b.pipeline, buildSub_ok (by simp [hk, hl]) (a := [List.range' 0 k, List.range' k l]) ?_, e, he, k + l - 1, hq, by simp; omega⟩
    simp only [ranges, List.sum_cons, List.sum_nil, Nat.zero_add, Nat.add_zero]
    exact h1
  refine ⟨h skip, ?_⟩
  rw [show (gamma : List Reg → M LocalBuilder (List Reg)) = gammaSkip true from funext gamma_skip]
  exact h true

/-- registers of two qubits each (so that there are factors) in a builder with a temporary -/
example : Does rotAngle (do invertFn gamma (← gamma [[1, 0], [2, 3]])) fiveQubits [[1, 0], [2, 3]] ([1, 0, 2, 3] ++ []) ket :=
  ((C82_undo rotAngle rotAngle_neg true 2 2 (by norm_num) (by norm_num)).2 _ (Or.inr rfl) fiveQubits [[1, 0], [2, 3]] [] rfl
    ⟨by simp [fiveQubits], by simp [fiveQubits], by simp [fiveQubits]⟩).1

example : tofC 2 2 = -I := by simp [tofC]

/-- What `gamma` does, on registers of all sizes and in every builder: it flips `rb` if all qubits of `ra` are 1, and then
flips `ra` if all qubits of `rb` are 1, with the factors of `toffoli` (C32). -/
theorem C82_gamma (ang : Rot → ℝ) (s : LocalBuilder) (ra rb : Reg) (L : List ℕ) (ha : ra ≠ []) (hb : rb ≠ [])
    (ho : Own s (ra ++ rb ++ L)) :
    Does ang (gamma [ra, rb]) s [ra, rb] (ra ++ rb ++ L) fun x =>
      lift (flipIf (tofC rb.length ra.length) rb ra) (flipIf (tofC ra.length rb.length) ra rb x) := by
  rw [gamma_skip]
  exact gammaSkip_does ang true s ra rb L ha hb ho

/-- What the generated inverse does: the same flips in the opposite order, with the inverse factors. -/
theorem C82_inverse (ang : Rot → ℝ) (hang : ∀ ρ, ang (Rot.neg ρ) = -ang ρ) (s : LocalBuilder) (ra rb : Reg) (L : List ℕ)
    (ha : ra ≠ []) (hb : rb ≠ []) (ho : Own s (ra ++ rb ++ L)) :
    Does ang (invertFn gamma [ra, rb]) s [ra, rb] (ra ++ rb ++ L) fun x =>
      lift (flipIf (tofC ra.length rb.length)⁻¹ ra rb) (flipIf (tofC rb.length ra.length)⁻¹ rb ra x) := by
  rw [show (gamma : List Reg → M LocalBuilder (List Reg)) = gammaSkip true from funext gamma_skip]
  have hk := List.length_pos_iff.mpr ha
  have hl := List.length_pos_iff.mpr hb
  have hn := (List.nodup_append.mp ho.left).1
  have hfl : [ra, rb].flatten = ra ++ rb := by simp
  have hrg : ranges 0 ([ra, rb].map List.length) = [List.range' 0 ra.length, List.range' ra.length rb.length] := by
    simp [ranges]
  have hlen : [ra, rb].flatten.length = ra.length + rb.length := by rw [hfl, List.length_append]
  have := (inverter_does (L := L) (s := s) hang (f := gammaSkip true) (rs := [ra, rb]) (by simp) (by simp [ha, hb])
    (a := [List.range' 0 ra.length, List.range' ra.length rb.length]) (L0 := List.range' 0 ra.length ++ List.range' ra.length rb.length ++ [])
    (U := gammaU true (List.range' 0 ra.length) (List.range' ra.length rb.length)) (by
      rw [hrg, hlen]
      exact gammaSkip_does ang true _ _ _ [] (by simp; omega) (by simp; omega) (two_own' _ _)) (by
      intro b hb'
      rw [hrg, hlen] at hb'
      obtain ⟨b', h1, e, he, hq⟩ := gamma_touches ang true _ _ hk hl
      rw [hb'] at h1
      injection h1 with _ h1
      subst h1
      obtain ⟨m, m1, m2⟩ := maxIndex_of_touched ⟨e, he, hq⟩
      exact ⟨m, m1, by rw [hlen]; omega⟩)
    (gammaInvU true (List.range' 0 ra.length) (List.range' ra.length rb.length)) (by
      intro z hz
      rw [hlen] at hz ⊢
      refine ⟨?_, (gammaU_inv true _ _ ?_ z).1⟩
      · unfold gammaInvU
        simp only [if_true]
        refine (flipIf_low _ _ _ _ (range_left _ _) z hz).map _ fun y hy => ?_
        rw [lift_ket]
        exact flipIf_low _ _ _ _ (range_right _ _) y hy
      · intro q h1 h2
        rw [List.mem_range'_1] at h1 h2
        omega) (by rw [hfl]; exact ho)).2
  rw [hfl] at this
  refine this.congrU fun x _ => ?_
  rw [(gammaU_move true ra rb hn x).2]
  rfl

/-- For the sizes of the documentation, and whenever one of the registers is a single qubit, there are no factors. -/
theorem C82_no_phase (k l : ℕ) (h : k = 1 ∨ l = 1) : tofC k l = 1 := by
  unfold tofC
  rcases h with rfl | rfl
  · simp
  · simp

/-- The program `gamma g0, g1; gamma_inv g0, g1;` returns its registers and does nothing, for all registers and groups. -/
theorem C82_program (s : LocalBuilder) (rs : List Reg) (L : List ℕ) (hr : ∀ r ∈ rs, r ≠ []) (g0 g1 : List Sel)
    (hv : ValidGroups rs [g0, g1]) (ho : Own s (rs.flatten ++ L)) :
    Does rotAngle (program (β := LocalBuilder) rs [.plain gamma [g0, g1], .plain (invertFn gamma) [g0, g1]]) s rs (rs.flatten ++ L) ket := by
  have hn := (List.nodup_append.mp ho.left).1
  obtain ⟨n1, n2⟩ := groups_nodup rs hn _ hv
  set ra := groupReg rs g0 with hra
  set rb := groupReg rs g1 with hrb
  have e0 : [g0, g1].map (groupReg rs) = [ra, rb] := rfl
  have ef : [ra, rb].flatten = ra ++ rb := by simp
  rw [e0, ef] at n1 n2
  have ha : ra ≠ [] := by
    have := hv.ne g0 (by simp)
    rw [hra]; unfold groupReg; simpa using this
  have hb : rb ≠ [] := by
    have := hv.ne g1 (by simp)
    rw [hrb]; unfold groupReg; simpa using this
  obtain ⟨R, hR⟩ := own_front (b := s) (A := []) (Q := rs.flatten) (L := L) (ra ++ rb) n1 n2 (by simpa using ho)
  have hR' : (rs.flatten ++ L).Perm (ra ++ rb ++ R) := by simpa using hR
  have ho' : Own s (ra ++ rb ++ R) := ho.perm hR'
  obtain ⟨s1, h1, -, o1, -⟩ := C82_gamma rotAngle s ra rb R ha hb ho'
  obtain ⟨s2, h2, h3, o2, h4⟩ := ((C82_undo rotAngle rotAngle_neg true ra.length rb.length (List.length_pos_iff.mpr ha)
    (List.length_pos_iff.mpr hb)).2 (invertFn gamma) (Or.inr rfl) s [ra, rb] R rfl (by rw [ef]; exact ho')).1
  rw [bind_ok h1] at h2
  refine ⟨s2, C51_program (k := 0) hr hn _ (by
    intro l hl
    rcases List.mem_cons.mp hl with rfl | hl
    · exact hv
    · rcases List.mem_cons.mp hl with rfl | hl
      · exact hv
      · exact absurd hl (List.not_mem_nil)) ⟨s1, h1, s2, h2, rfl⟩, h3, ?_, h4⟩
  rw [ef] at o2
  exact o2.perm hR'.symm

/-- The documented program builds, returns all six qubits in one register and leaves every state as it is. -/
theorem C82_example : ∃ s, inverseExample LocalBuilder.default = .ok [0, 1, 2, 3, 4, 5] s ∧
    ∀ (a b : ℕ) (rnds : ℕ → ℝ), ∃ v, s.calculateStateWithInit [([0, 1, 2], a), ([3, 4, 5], b)] rnds = some (v, []) ∧
      Rep s.n v (ket (initAsg [([0, 1, 2], a), ([3, 4, 5], b)])) := by
  have ho : Own ⟨[], 6, [], 0⟩ ([[0, 1, 2], [3, 4, 5]].flatten ++ []) := ⟨by simp, by simp, by simp⟩
  obtain ⟨s, h1, -, -, h4⟩ := C82_program ⟨[], 6, [], 0⟩ [[0, 1, 2], [3, 4, 5]] [] (by simp) [(0, some [0, 1])] [(0, some [2])]
    ⟨by decide, by decide, by decide, by unfold HasPos; decide⟩ ho
  refine ⟨s, ?_, ?_⟩
  · unfold inverseExample
    rw [bind_ok (register_run 3 (by norm_num) _), bind_ok (register_run 3 (by norm_num) _)]
    exact bind_ok (s := (⟨[], 6, [], 0⟩ : LocalBuilder)) h1
  · intro a b rnds
    obtain ⟨seg, g1, g2, g3⟩ := h4.seg
    have hs : s.pipeline = seg := g1
    have hn : 6 ≤ s.n := h4.n_le
    obtain ⟨v, v1, v2⟩ := calculate_unitary s [([0, 1, 2], a), ([3, 4, 5], b)] (by
      intro p hp q hq
      simp only [List.mem_cons, List.not_mem_nil, or_false] at hp
      rcases hp with rfl | rfl <;> simp at hq <;> omega) (by rw [hs]; exact fun e he => (g2 e he).1) rnds
    refine ⟨v, v1, ?_⟩
    rw [hs] at v2
    have := (g3 (initAsg [([0, 1, 2], a), ([3, 4, 5], b)]) ?_).1
    · rw [this] at v2
      exact v2
    · refine (fresh_clean 6 _).mpr fun i hi => ?_
      unfold initAsg
      rw [decide_eq_false_iff_not]
      rintro ⟨p, hp, k, hk, -⟩
      have := List.mem_of_getElem? hk
      simp only [List.mem_cons, List.not_mem_nil, or_false] at hp
      rcases hp with rfl | rfl <;> simp at this <;> omega

end Verif.Props
