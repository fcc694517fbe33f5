import Verif.Spec.Uncompute
import Verif.Proofs.Commute

/-! # Classical programs and uncomputing -/

namespace Verif
open Complex

/-- basis states go to multiples of basis states -/
def Mono (U : Asg → Wave) : Prop := ∀ x, ∃ (z : ℂ) (y : Asg), U x = z • ket y

theorem Mono.of_ket (f : Asg → Asg) : Mono fun x => ket (f x) := fun x => ⟨1, f x, (one_smul _ _).symm⟩

theorem Mono.comp {U V : Asg → Wave} (hU : Mono U) (hV : Mono V) : Mono fun x => lift V (U x) := fun x => by
  obtain ⟨z, y, h⟩ := hU x
  obtain ⟨w, t, h'⟩ := hV y
  exact ⟨z * w, t, by simp only [h, map_smul, lift_ket, h', smul_smul]⟩

theorem Mono.ite {U : Asg → Wave} (hU : Mono U) (C : Asg → Prop) [DecidablePred C] : Mono fun x => if C x then U x else ket x := fun x => by
  by_cases h : C x
  · simp only [if_pos h]; exact hU x
  · simp only [if_neg h]; exact Mono.of_ket id x

theorem Mono.flipIf (z : ℂ) (c r : Reg) : Mono (flipIf z c r) := fun x => by
  unfold Verif.flipIf
  split
  · exact ⟨_, _, rfl⟩
  · exact Mono.of_ket id x

/-- a matrix with one entry in every column -/
def MonoMat (M : ℕ → ℕ → ℂ) : Prop := ∀ j < 2, M 0 j = 0 ∨ M 1 j = 0

theorem Mono.gate {M : ℕ → ℕ → ℂ} (hM : MonoMat M) (q : ℕ) : Mono fun x => gateW [q] M (ket x) := fun x => by
  have hb : (x q).toNat < 2 := Bool.toNat_lt _
  simp only [gate1_ket]
  rcases hM _ hb with h | h
  · exact ⟨M 1 (x q).toNat, setQ q true x, by rw [h, zero_smul, zero_add]⟩
  · exact ⟨M 0 (x q).toNat, setQ q false x, by rw [h, zero_smul, add_zero]⟩

theorem Mono.each {M : ℕ → ℕ → ℂ} (hM : MonoMat M) (r : Reg) : Mono fun x => eachW M r (ket x) := by
  induction r with
  | nil => exact fun x => ⟨1, x, (one_smul _ _).symm⟩
  | cons q r ih =>
    intro x
    obtain ⟨z, y, h⟩ := Mono.gate hM q x
    obtain ⟨w, t, h'⟩ := ih y
    refine ⟨z * w, t, ?_⟩
    show eachW M r (gateW [q] M (ket x)) = _
    simp only at h h'
    rw [h, map_smul, h', smul_smul]

theorem Mono.gates {M : ℕ → ℕ → ℂ} (hM : MonoMat M) {r : Reg} (hr : r.length = 1) : Mono fun x => gateW r M (ket x) := by
  obtain ⟨q, rfl⟩ := List.length_eq_one_iff.mp hr
  exact Mono.gate hM q

theorem rz_mono (θ : ℝ) : MonoMat (rzMat θ) := fun j hj => by
  interval_cases j
  · exact .inr rfl
  · exact .inl rfl

theorem named_mono {g : Named} (hg : g ≠ .h) : MonoMat g.mat ∧ MonoMat g.condMat := by
  constructor <;> intro j hj <;> cases g <;> first | exact absurd rfl hg | (interval_cases j <;> first | exact .inl rfl | exact .inr rfl)

theorem Method.mono (m : Method) (inside : Bool) (hm : m.Classical inside) (rs : List Reg) (hT : m.Takes inside rs) : Mono (m.wave inside rs) := by
  have three : rs.map List.length = [1, 1, 1] → ∃ a b c, rs = [a, b, c] := fun h => List.length_eq_three.mp (by simpa using congrArg List.length h)
  have four : rs.map List.length = [1, 1, 1, 1] → ∃ a b c d, rs = [a, b, c, d] := fun h => four_regs (by simpa using congrArg List.length h)
  cases m with
  | named g =>
    match rs, hT with
    | [r], _ =>
      have h := named_mono (g := g) hm
      cases inside
      · exact Mono.each h.1 r
      · exact Mono.each h.2 r
  | cnot => match rs, hT with
    | [c, r], _ => exact Mono.flipIf 1 c r
  | swap => match rs, hT with
    | [a, b], _ => exact Mono.of_ket _
  | toffoli =>
    obtain rfl : inside = false := hm
    match rs, hT with
    | [c, r], _ =>
      intro x
      have : (Method.toffoli).wave false [c, r] x = flipIf (if c.length = 1 then 1 else (-Complex.I) ^ (r.length - 1)) c r x := by simp [Method.wave]
      rw [this]
      exact Mono.flipIf _ c r x
  | negateBitmask m => match rs, hT with
    | [r], _ => exact Mono.of_ket _
  | sum => obtain ⟨a, b, c, rfl⟩ := three hT; exact Mono.of_ket _
  | carry => obtain ⟨a, b, c, d, rfl⟩ := four hT; exact Mono.of_ket _
  | copy => match rs, hT with
    | [a, b], _ => exact Mono.of_ket _
  | rshift => match rs, hT with
    | [r], _ => exact Mono.of_ket _
  | rz θ => match rs, hT with
    | [r], hT => exact Mono.gates (rz_mono _) hT.2
  | rzRatio θ => match rs, hT with
    | [r], hT => exact Mono.gates (rz_mono _) hT.2
  | rzPiBy k => match rs, hT with
    | [r], hT => exact Mono.gates (rz_mono _) hT.2.1
  | carryInv => obtain ⟨a, b, c, d, rfl⟩ := four hT.2; exact Mono.of_ket _
  | add => match rs, hT with
    | [c, a, b], _ => exact Mono.of_ket _
  | addInv => match rs, hT with
    | [c, a, b], _ => exact Mono.of_ket _
  | lshift => match rs, hT with
    | [r], _ => exact Mono.of_ket _
  | copyInv => match rs, hT with
    | [a, b], _ => exact Mono.of_ket _
  | _ => exact absurd hm (by simp [Method.Classical])

theorem Mono.dagger {Q : Reg} (hn : Q.Nodup) {U : Asg → Wave} (hK : KeepsW Q U) (hU : Mono U) (h1 : ∀ x, lift (daggerW Q U) (U x) = ket x) (h2 : ∀ x, lift U (daggerW Q U x) = ket x) :
    Mono (daggerW Q U) := fun x => by
  have hne : daggerW Q U x ≠ 0 := fun h => by
    have := h2 x
    rw [h, map_zero] at this
    exact one_ne_zero (α := ℂ) (by simpa [ket] using (DFunLike.congr_fun this x).symm)
  obtain ⟨y, hy⟩ := Finsupp.support_nonempty_iff.mpr hne
  rw [Finsupp.mem_support_iff, dagger_at hn hK, Ne, map_eq_zero] at hy
  obtain ⟨z, t, h⟩ := hU y
  have ht : t = x := by
    by_contra hc
    rw [h, Finsupp.smul_apply, ket, Finsupp.single_eq_of_ne (Ne.symm hc), smul_zero] at hy
    exact hy rfl
  subst ht
  have hz : z ≠ 0 := fun h0 => by
    rw [h, h0, zero_smul] at hy
    exact hy rfl
  have := h1 y
  rw [h, map_smul, lift_ket] at this
  exact ⟨z⁻¹, y, by rw [← this, smul_smul, inv_mul_cancel₀ hz, one_smul]⟩

mutual
theorem Prog.mono : (p : Prog) → (inside : Bool) → p.Classical inside → (rs : List Reg) → p.Takes inside rs → rs.flatten.Nodup → Mono (p.wave inside rs)
  | .call m, inside, h, rs, hT, _ => by
    simp only [Prog.Classical, Prog.Takes] at h hT
    have := m.mono inside h rs hT
    intro x
    simp only [Prog.wave]
    exact this x
  | .seq p q, inside, h, rs, hT, hn => by
    simp only [Prog.Classical, Prog.Takes] at h hT
    have := (p.mono inside h.1 rs hT.1 hn).comp (q.mono inside h.2 rs hT.2 hn)
    intro x
    simp only [Prog.wave]
    exact this x
  | .cond p, inside, h, rs, hT, hn => by
    match rs, hT with
    | cr :: rs, hT =>
      simp only [Prog.Classical, Prog.Takes] at h hT
      rw [List.flatten_cons] at hn
      have := p.mono true h rs hT.2 (List.nodup_append.mp hn).2.1
      intro x
      simp only [Prog.wave]
      split
      · exact this x
      · exact Mono.of_ket id x
  | .prog ls, inside, h, rs, hT, hn => by
    simp only [Prog.Classical, Prog.Takes] at h hT
    have := ls.mono inside h rs hT.2 hn
    intro x
    simp only [Prog.wave]
    exact this x
  | .sized F, inside, h, rs, hT, hn => by
    simp only [Prog.Classical, Prog.Takes] at h hT
    have := (F (rs.map List.length)).mono inside (h _) rs hT hn
    intro x
    simp only [Prog.wave]
    exact this x
  | .inv _ p, inside, h, rs, hT, hn => by
    simp only [Prog.Classical, Prog.Takes] at h hT
    obtain ⟨rfl, -, -, hp, -⟩ := hT
    have hp' := takes_ranges hp
    have := (p.mono false h rs hp' hn).dagger hn (p.keepsW false rs hp' hn) (fun x => (p.undo rs hp' hn x).1) fun x => (p.undo rs hp' hn x).2
    intro x
    simp only [Prog.wave]
    exact this x

theorem Lines.mono : (ls : Lines) → (inside : Bool) → ls.Classical inside → (rs : List Reg) → ls.Takes inside rs → rs.flatten.Nodup → Mono (ls.wave inside rs)
  | .nil, inside, _, rs, _, _ => fun x => by
    simp only [Lines.wave]
    exact Mono.of_ket id x
  | .plain p gs ls, inside, h, rs, hT, hn => by
    simp only [Lines.Classical, Lines.Takes] at h hT
    have := (p.mono inside h.1 _ hT.2.1 (groups_nodup rs hn gs hT.1).1).comp (ls.mono inside h.2 rs hT.2.2 hn)
    intro x
    simp only [Lines.wave]
    exact this x
  | .control m p g gs ls, inside, h, rs, hT, hn => by
    simp only [Lines.Classical, Lines.Takes] at h hT
    have hv : ValidGroups rs gs := by
      obtain ⟨v1, v2, v3, v4⟩ := hT.1
      rw [List.flatMap_cons] at v2 v4
      exact ⟨fun g hg => v1 g (by simp [hg]), (List.nodup_append.mp v2).2.1, fun g hg => v3 g (by simp [hg]), fun p hp => v4 p (List.mem_append_right _ hp)⟩
    classical
    have := ((p.mono true h.1 _ hT.2.1 (groups_nodup rs hn gs hv).1).ite fun x => Holds m (groupReg rs g) x).comp (ls.mono inside h.2 rs hT.2.2 hn)
    intro x
    have e := this x
    simp only [Lines.wave, lift_eq]
    exact e
end

/-- computing, using and uncomputing leaves everything as it is that the use leaves as it is and the computation has to do with -/
theorem uncompute_leaves {P : Set ℕ} {Q R : Reg} (hQ : Q.Nodup) {U V : Asg → Wave} (hU : Mono U) (hL : LocalOn P U) (hK : KeepsW Q U) (h1 : ∀ x, lift (daggerW Q U) (U x) = ket x)
    (hV : ∀ x, On {y | ∀ q, q ∉ R → y q = x q} (V x)) {T : Set ℕ} (hPT : P ⊆ T) (hT : ∀ x, On {y | ∀ q ∈ T, y q = x q} (V x)) (x : Asg) :
    On {y | ∀ q ∈ T, y q = x q} (lift (daggerW Q U) (lift V (U x))) := by
  obtain ⟨z, t, h⟩ := hU x
  have hz : z ≠ 0 := fun h0 => by
    have := h1 x
    rw [h, h0, zero_smul, map_zero] at this
    exact one_ne_zero (α := ℂ) (by simpa [ket] using (DFunLike.congr_fun this x).symm)
  have hD : daggerW Q U t = z⁻¹ • ket x := by
    have := h1 x
    rw [h, map_smul, lift_ket] at this
    rw [← this, smul_smul, inv_mul_cancel₀ hz, one_smul]
  rw [h, map_smul, lift_ket, map_smul]
  refine On.smul ?_ _
  have hon : On {y | (∀ q, q ∉ R → y q = t q) ∧ ∀ q ∈ T, y q = t q} (V t) := on_iff.mpr fun y hy => ⟨on_iff.mp (hV t) y hy, on_iff.mp (hT t) y hy⟩
  refine hon.map _ fun y hy => ?_
  have e : flipAll (R.filter fun q => y q != t q) t = y := by
    funext q
    unfold flipAll
    by_cases hq : q ∈ R.filter fun q => y q != t q
    · rw [if_pos hq]
      have := (List.mem_filter.mp hq).2
      cases h1 : y q <;> cases h2 : t q <;> simp_all
    · rw [if_neg hq]
      by_contra hne
      refine hq (List.mem_filter.mpr ⟨?_, by simpa using fun e => hne e.symm⟩)
      by_contra hqR
      exact hne (hy.1 q hqR).symm
  have hc : ∀ q ∈ R.filter fun q => y q != t q, q ∉ T := fun q hq hqT => by
    have := (List.mem_filter.mp hq).2
    rw [hy.2 q hqT] at this
    simp at this
  rw [lift_ket, ← e, (hL.dagger hQ hK).blind _ (fun q hq hp => hc q hq (hPT hp)), hD, map_smul, flipL_ket]
  refine On.smul (On.ket (S := {y | ∀ q ∈ T, y q = x q}) fun q hq => ?_) _
  exact flipAll_not_mem _ _ _ fun hm => hc q hm hq

end Verif
