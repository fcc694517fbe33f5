import Verif.Spec.Commute
import Verif.Proofs.Defer

/-! # Programs that have nothing to do with each other commute -/

namespace Verif
open Complex

/-- the flips of the qubits of `c` as a linear map -/
noncomputable def flipL (c : Reg) : Wave →ₗ[ℂ] Wave := lift fun x => ket (flipAll c x)

theorem flipL_ket (c : Reg) (x : Asg) : flipL c (ket x) = ket (flipAll c x) := lift_ket _ _

theorem flipL_flipL (c : Reg) (ψ : Wave) : flipL c (flipL c ψ) = ψ := by
  have : flipL c ∘ₗ flipL c = LinearMap.id := wave_ext fun x => by
    rw [LinearMap.comp_apply, flipL_ket, flipL_ket, flipAll_flipAll]; rfl
  exact LinearMap.congr_fun this ψ

theorem flipL_apply (c : Reg) (ψ : Wave) (y : Asg) : flipL c ψ y = ψ (flipAll c y) := by
  let L1 : Wave →ₗ[ℂ] ℂ := Finsupp.lapply y ∘ₗ flipL c
  let L2 : Wave →ₗ[ℂ] ℂ := Finsupp.lapply (flipAll c y)
  have : L1 = L2 := Finsupp.lhom_ext' fun x => LinearMap.ext_ring (by
    show flipL c (ket x) y = ket x (flipAll c y)
    rw [flipL_ket]
    unfold ket
    by_cases h : flipAll c x = y
    · have : x = flipAll c y := by rw [← h, flipAll_flipAll]
      rw [h, ← this, Finsupp.single_eq_same, Finsupp.single_eq_same]
    · have : x ≠ flipAll c y := fun e => h (by rw [e, flipAll_flipAll])
      rw [Finsupp.single_eq_of_ne (Ne.symm h), Finsupp.single_eq_of_ne this.symm])
  exact LinearMap.congr_fun this ψ

/-- an action that has to do with the qubits of `P` only -/
structure LocalOn (P : Set ℕ) (U : Asg → Wave) : Prop where
  keeps : ∀ x, On {y | ∀ q, q ∉ P → y q = x q} (U x)
  blind : ∀ c : Reg, (∀ q ∈ c, q ∉ P) → ∀ x, U (flipAll c x) = flipL c (U x)

theorem LocalOn.mono {P P' : Set ℕ} {U : Asg → Wave} (h : LocalOn P U) (hP : P ⊆ P') : LocalOn P' U :=
  ⟨fun x => (h.keeps x).mono fun _ hy q hq => hy q fun hp => hq (hP hp), fun c hc x => h.blind c (fun q hq hp => hc q hq (hP hp)) x⟩

theorem LocalOn.ket (P : Set ℕ) : LocalOn P ket := ⟨fun _ => On.ket fun _ _ => rfl, fun c _ x => (flipL_ket c x).symm⟩

theorem LocalOn.lift_flip {P : Set ℕ} {U : Asg → Wave} (h : LocalOn P U) {c : Reg} (hc : ∀ q ∈ c, q ∉ P) (ψ : Wave) : lift U (flipL c ψ) = flipL c (lift U ψ) := by
  have : lift U ∘ₗ flipL c = flipL c ∘ₗ lift U := wave_ext fun x => by
    rw [LinearMap.comp_apply, LinearMap.comp_apply, flipL_ket, lift_ket, lift_ket, h.blind c hc]
  exact LinearMap.congr_fun this ψ

theorem LocalOn.comp {P : Set ℕ} {U V : Asg → Wave} (hU : LocalOn P U) (hV : LocalOn P V) : LocalOn P fun x => lift V (U x) where
  keeps x := (hU.keeps x).map _ fun y hy => by
    rw [Verif.lift_ket]
    exact (hV.keeps y).mono fun z hz q hq => (hz q hq).trans (hy q hq)
  blind c hc x := by rw [hU.blind c hc, hV.lift_flip hc]

theorem LocalOn.ite {P : Set ℕ} {U : Asg → Wave} (hU : LocalOn P U) (C : Asg → Prop) [DecidablePred C]
    (hC : ∀ c : Reg, (∀ q ∈ c, q ∉ P) → ∀ x, C (flipAll c x) ↔ C x) : LocalOn P fun x => if C x then U x else Verif.ket x where
  keeps x := by
    by_cases h : C x
    · simp only [if_pos h]; exact hU.keeps x
    · simp only [if_neg h]; exact On.ket fun _ _ => rfl
  blind c hc x := by
    by_cases h : C x
    · simp only [if_pos h, if_pos ((hC c hc x).mpr h)]; exact hU.blind c hc x
    · simp only [if_neg h, if_neg fun h' => h ((hC c hc x).mp h')]; exact (flipL_ket c x).symm

theorem dagger_within (Q : Reg) (U : Asg → Wave) (x : Asg) : On {y | ∀ q, q ∉ Q → y q = x q} (daggerW Q U x) := by
  unfold daggerW
  refine Submodule.sum_mem _ fun v _ => On.smul (On.ket (S := {y | ∀ q, q ∉ Q → y q = x q}) fun q hq => ?_) _
  exact writeQ_not_mem _ _ _ _ hq

theorem dagger_at {Q : Reg} (hn : Q.Nodup) {U : Asg → Wave} (hU : KeepsW Q U) (x y : Asg) : daggerW Q U x y = (starRingEnd ℂ) (U y x) := by
  by_cases h : ∀ q, q ∉ Q → y q = x q
  · unfold daggerW
    rw [Finsupp.finset_sum_apply, Finset.sum_eq_single (readQ Q y)]
    · rw [write_read h, Finsupp.smul_apply, Verif.ket, Finsupp.single_eq_same, smul_eq_mul, mul_one]
    · intro v hv hne
      rw [Finsupp.smul_apply, Verif.ket, Finsupp.single_eq_of_ne, smul_zero]
      intro e
      refine hne ?_
      rw [e, readQ_writeQ Q hn v (Finset.mem_range.mp hv)]
    · exact fun hv => absurd (Finset.mem_range.mpr (readQ_lt Q y)) hv
  · rw [hU.zero (x := y) (y := x) fun h' => h fun q hq => (h' q hq).symm, map_zero]
    exact Finsupp.notMem_support_iff.mp fun hm => h (on_iff.mp (dagger_within Q U x) y hm)

theorem LocalOn.dagger {P : Set ℕ} {Q : Reg} (hn : Q.Nodup) {U : Asg → Wave} (hU : KeepsW Q U) (h : LocalOn P U) : LocalOn P (daggerW Q U) where
  keeps x := on_iff.mpr fun y hy q hq => by
    rw [Finsupp.mem_support_iff, dagger_at hn hU, Ne, map_eq_zero] at hy
    exact (on_iff.mp (h.keeps y) x (Finsupp.mem_support_iff.mpr hy) q hq).symm
  blind c hc x := by
    ext y
    rw [flipL_apply, dagger_at hn hU, dagger_at hn hU, h.blind c hc, flipL_apply]

/-- two actions with nothing in common but qubits that both leave as they are can be exchanged -/
theorem commute_of {P Q : Set ℕ} {U V : Asg → Wave} (hU : LocalOn P U) (hV : LocalOn Q V) (hS : ∀ q, q ∈ P → q ∈ Q → ∀ x, On {y | y q = x q} (U x) ∧ On {y | y q = x q} (V x))
    {R : Reg} (hR : ∀ q, q ∈ P ∨ q ∈ Q → q ∈ R) (x : Asg) : lift U (V x) = lift V (U x) := by
  -- what `y` differs from `x` in
  let d : Asg → Reg := fun y => R.filter fun q => y q != x q
  have hd : ∀ {T : Set ℕ}, (∀ q ∈ T, q ∈ R) → ∀ y, (∀ q, q ∉ T → y q = x q) → flipAll (d y) x = y := fun {T} hT y hy => by
    funext q
    unfold flipAll
    by_cases hq : q ∈ d y
    · rw [if_pos hq]
      have := (List.mem_filter.mp hq).2
      cases h1 : y q <;> cases h2 : x q <;> simp_all
    · rw [if_neg hq]
      by_contra hne
      refine hq (List.mem_filter.mpr ⟨hT q ?_, by simpa using fun e => hne e.symm⟩)
      by_contra hqT
      exact hne (hy q hqT).symm
  have fl : ∀ a b : Reg, ∀ z, flipAll a (flipAll b z) = flipAll b (flipAll a z) := fun a b z => by
    funext q
    unfold flipAll
    split_ifs <;> rfl
  have yV : ∀ y ∈ (V x).support, flipAll (d y) x = y ∧ ∀ q ∈ d y, q ∉ P := fun y hy =>
    have h1 := on_iff.mp (hV.keeps x) y hy
    ⟨hd (fun q hq => hR q (.inr hq)) y h1, fun q hq hp => by
      have h2 := (List.mem_filter.mp hq).2
      by_cases hqQ : q ∈ Q
      · have := on_iff.mp (hS q hp hqQ x).2 y hy
        rw [show y q = x q from this] at h2
        simp at h2
      · rw [h1 q hqQ] at h2
        simp at h2⟩
  have yU : ∀ y ∈ (U x).support, flipAll (d y) x = y ∧ ∀ q ∈ d y, q ∉ Q := fun y hy =>
    have h1 := on_iff.mp (hU.keeps x) y hy
    ⟨hd (fun q hq => hR q (.inl hq)) y h1, fun q hq hp => by
      have h2 := (List.mem_filter.mp hq).2
      by_cases hqP : q ∈ P
      · have := on_iff.mp (hS q hqP hp x).1 y hy
        rw [show y q = x q from this] at h2
        simp at h2
      · rw [h1 q hqP] at h2
        simp at h2⟩
  have e1 : lift U (V x) = ∑ y ∈ (V x).support, ∑ w ∈ (U x).support, (V x y * U x w) • ket (flipAll (d y) w) := by
    rw [← lift_eq, Finsupp.linearCombination_apply, Finsupp.sum]
    refine Finset.sum_congr rfl fun y hy => ?_
    obtain ⟨h1, h2⟩ := yV y hy
    have : U y = flipL (d y) (U x) := by
      conv_lhs => rw [← h1]
      exact hU.blind _ h2 x
    rw [this]
    unfold flipL
    rw [← lift_eq, Finsupp.linearCombination_apply, Finsupp.sum, Finset.smul_sum]
    exact Finset.sum_congr rfl fun w _ => smul_smul _ _ _
  have e2 : lift V (U x) = ∑ w ∈ (U x).support, ∑ y ∈ (V x).support, (U x w * V x y) • ket (flipAll (d w) y) := by
    rw [← lift_eq, Finsupp.linearCombination_apply, Finsupp.sum]
    refine Finset.sum_congr rfl fun w hw => ?_
    obtain ⟨h1, h2⟩ := yU w hw
    have : V w = flipL (d w) (V x) := by
      conv_lhs => rw [← h1]
      exact hV.blind _ h2 x
    rw [this]
    unfold flipL
    rw [← lift_eq, Finsupp.linearCombination_apply, Finsupp.sum, Finset.smul_sum]
    exact Finset.sum_congr rfl fun y _ => smul_smul _ _ _
  rw [e1, e2, Finset.sum_comm]
  refine Finset.sum_congr rfl fun w hw => Finset.sum_congr rfl fun y hy => ?_
  have h1 := (yV y hy).1
  have h2 := (yU w hw).1
  rw [mul_comm]
  congr 2
  calc flipAll (d y) w = flipAll (d y) (flipAll (d w) x) := by rw [h2]
    _ = flipAll (d w) (flipAll (d y) x) := fl _ _ _
    _ = flipAll (d w) y := by rw [h1]

/-- the qubits of the registers the program has to do with -/
def usedQ (u : ℕ → Prop) (rs : List Reg) : Set ℕ := {q | ∃ k, u k ∧ q ∈ rs.getD k []}

theorem negMask_flipAll (c : Reg) (x : Asg) : negMask c 0 x = flipAll c x := by
  funext q
  simp [negMask, flipAll]

theorem Prog.localAll (p : Prog) (inside : Bool) (rs : List Reg) (h : p.Takes inside rs) (hn : rs.flatten.Nodup) : LocalOn {q | q ∈ rs.flatten} (p.wave inside rs) := by
  refine ⟨fun x => on_iff.mpr fun y hy q hq => (Props.C105_local p inside rs h hn x).1 y hy q hq, fun c hc x => ?_⟩
  have := (Props.C105_local p inside rs h hn x).2 c (fun q hq hqc => hc q hqc hq) 0
  simp only [negMask_flipAll, lift_eq] at this
  rw [← this, show (lift fun y => Verif.ket (flipAll c y)) = flipL c from rfl, flipL_flipL]

theorem flatten_used (rs : List Reg) : {q | q ∈ rs.flatten} ⊆ usedQ (fun _ => True) rs := fun q hq => by
  obtain ⟨r, hr, hqr⟩ := List.mem_flatten.mp hq
  obtain ⟨k, hk, e⟩ := List.mem_iff_getElem.mp hr
  exact ⟨k, trivial, by rwa [List.getD_eq_getElem _ _ hk, e]⟩

theorem used_mono {u v : ℕ → Prop} (h : ∀ k, u k → v k) (rs : List Reg) : usedQ u rs ⊆ usedQ v rs := fun _ ⟨k, h1, h2⟩ => ⟨k, h k h1, h2⟩

theorem group_used {rs : List Reg} {gs : List (List Sel)} (hv : ValidGroups rs gs) {g : List Sel} (hg : g ∈ gs) {q : ℕ} (hq : q ∈ groupReg rs g) :
    ∃ s ∈ g, q ∈ rs.getD s.1 [] := by
  obtain ⟨pos, hp, rfl⟩ := List.mem_map.mp hq
  have hpos := hv.pos pos (List.mem_flatMap.mpr ⟨g, hg, hp⟩)
  obtain ⟨s, hs, hps⟩ := List.mem_flatMap.mp hp
  refine ⟨s, hs, ?_⟩
  have e : pos.1 = s.1 := by
    unfold selPos at hps
    obtain ⟨i, -, rfl⟩ := List.mem_map.mp hps
    rfl
  rw [← e]
  unfold qubitAt
  rw [List.getD_eq_getElem _ _ hpos.2]
  exact List.getElem_mem _

theorem groups_used {rs : List Reg} {gs gs' : List (List Sel)} (hv : ValidGroups rs gs) (hs : ∀ g ∈ gs, g ∈ gs') :
    {q | q ∈ (gs.map (groupReg rs)).flatten} ⊆ usedQ (fun k => ∃ g ∈ gs', ∃ s ∈ g, s.1 = k) rs := fun q hq => by
  obtain ⟨r, hr, hqr⟩ := List.mem_flatten.mp hq
  obtain ⟨g, hg, rfl⟩ := List.mem_map.mp hr
  obtain ⟨s, h1, h2⟩ := group_used hv hg hqr
  exact ⟨s.1, ⟨g, hs g hg, s, h1, rfl⟩, h2⟩

mutual
theorem Prog.localOn : (p : Prog) → (inside : Bool) → (rs : List Reg) → p.Takes inside rs → rs.flatten.Nodup → LocalOn (usedQ p.Uses rs) (p.wave inside rs)
  | .call m, inside, rs, hT, hn => ((Prog.call m).localAll inside rs hT hn).mono ((flatten_used rs).trans (used_mono (fun k _ => by simp only [Prog.Uses]) rs))
  | .seq p q, inside, rs, hT, hn => by
    simp only [Prog.Takes] at hT
    have h1 := (p.localOn inside rs hT.1 hn).mono (used_mono (v := (Prog.seq p q).Uses) (fun k h => by simp only [Prog.Uses]; exact .inl h) rs)
    have h2 := (q.localOn inside rs hT.2 hn).mono (used_mono (v := (Prog.seq p q).Uses) (fun k h => by simp only [Prog.Uses]; exact .inr h) rs)
    have := h1.comp h2
    rwa [show (fun x => lift (q.wave inside rs) (p.wave inside rs x)) = (Prog.seq p q).wave inside rs from funext fun x => by simp only [Prog.wave, lift_eq]] at this
  | .cond p, inside, rs, hT, hn => by
    match rs, hT with
    | cr :: rs, hT =>
      simp only [Prog.Takes] at hT
      rw [List.flatten_cons] at hn
      have h1 := (p.localOn true rs hT.2 (List.nodup_append.mp hn).2.1).mono (P' := usedQ (Prog.cond p).Uses (cr :: rs)) fun q ⟨k, h1, h2⟩ =>
        ⟨k + 1, by simp only [Prog.Uses]; exact h1, by simpa using h2⟩
      classical
      have := h1.ite (fun x => ∀ c ∈ cr, x c = true) fun c hc x => by
        refine forall₂_congr fun q hq => ?_
        rw [flipAll_not_mem _ _ _ fun hqc => hc q hqc ⟨0, by simp only [Prog.Uses], by simpa using hq⟩]
      rwa [show (fun x => if ∀ c ∈ cr, x c = true then p.wave true rs x else Verif.ket x) = (Prog.cond p).wave inside (cr :: rs) from funext fun x => by
        simp only [Prog.wave]] at this
  | .prog ls, inside, rs, hT, hn => by
    simp only [Prog.Takes] at hT
    have := (ls.localOn inside rs hT.2 hn).mono (used_mono (v := (Prog.prog ls).Uses) (fun k h => by simp only [Prog.Uses]; exact h) rs)
    rwa [show ls.wave inside rs = (Prog.prog ls).wave inside rs from funext fun x => by simp only [Prog.wave]] at this
  | .sized F, inside, rs, hT, hn => by
    simp only [Prog.Takes] at hT
    have := ((F (rs.map List.length)).localOn inside rs hT hn).mono (used_mono (v := (Prog.sized F).Uses) (fun k h => by simp only [Prog.Uses]; exact ⟨_, h⟩) rs)
    rwa [show (F (rs.map List.length)).wave inside rs = (Prog.sized F).wave inside rs from funext fun x => by simp only [Prog.wave]] at this
  | .inv b p, inside, rs, hT, hn => by
    simp only [Prog.Takes] at hT
    obtain ⟨rfl, -, -, hp, -⟩ := hT
    have hp' := takes_ranges hp
    have := ((p.localOn false rs hp' hn).dagger hn (p.keepsW false rs hp' hn)).mono (used_mono (v := (Prog.inv b p).Uses) (fun k h => by simp only [Prog.Uses]; exact h) rs)
    rwa [show daggerW rs.flatten (p.wave false rs) = (Prog.inv b p).wave false rs from funext fun x => by simp only [Prog.wave]] at this

theorem Lines.localOn : (ls : Lines) → (inside : Bool) → (rs : List Reg) → ls.Takes inside rs → rs.flatten.Nodup → LocalOn (usedQ ls.Uses rs) (ls.wave inside rs)
  | .nil, inside, rs, _, _ => by
    rw [show Lines.nil.wave inside rs = Verif.ket from funext fun x => by simp only [Lines.wave]]
    exact LocalOn.ket _
  | .plain p gs ls, inside, rs, hT, hn => by
    simp only [Lines.Takes] at hT
    have h1 := (p.localAll inside _ hT.2.1 (groups_nodup rs hn gs hT.1).1).mono ((groups_used hT.1 fun _ h => h).trans
      (used_mono (v := (Lines.plain p gs ls).Uses) (fun k h => by simp only [Lines.Uses]; exact .inl h) rs))
    have h2 := (ls.localOn inside rs hT.2.2 hn).mono (used_mono (v := (Lines.plain p gs ls).Uses) (fun k h => by simp only [Lines.Uses]; exact .inr h) rs)
    have := h1.comp h2
    rwa [show (fun x => lift (ls.wave inside rs) (p.wave inside (gs.map (groupReg rs)) x)) = (Lines.plain p gs ls).wave inside rs from funext fun x => by
      simp only [Lines.wave, lift_eq]] at this
  | .control m p g gs ls, inside, rs, hT, hn => by
    simp only [Lines.Takes] at hT
    have hv : ValidGroups rs gs := by
      obtain ⟨v1, v2, v3, v4⟩ := hT.1
      rw [List.flatMap_cons] at v2 v4
      exact ⟨fun g hg => v1 g (by simp [hg]), (List.nodup_append.mp v2).2.1, fun g hg => v3 g (by simp [hg]), fun p hp => v4 p (List.mem_append_right _ hp)⟩
    have h1 := (p.localAll true _ hT.2.1 (groups_nodup rs hn gs hv).1).mono ((groups_used (gs' := g :: gs) hv fun _ h => List.mem_cons_of_mem _ h).trans
      (used_mono (v := (Lines.control m p g gs ls).Uses) (fun k h => by simp only [Lines.Uses]; exact .inl h) rs))
    classical
    have h2 := h1.ite (fun x => Holds m (groupReg rs g) x) fun c hc x => holds_congr fun q hq => by
      refine flipAll_not_mem _ _ _ fun hqc => hc q hqc ?_
      obtain ⟨s, hs, hqs⟩ := group_used hT.1 (g := g) (by simp) hq
      exact ⟨s.1, by simp only [Lines.Uses]; exact .inl ⟨g, by simp, s, hs, rfl⟩, hqs⟩
    have h3 := (ls.localOn inside rs hT.2.2 hn).mono (used_mono (v := (Lines.control m p g gs ls).Uses) (fun k h => by simp only [Lines.Uses]; exact .inr h) rs)
    have := h2.comp h3
    rwa [show (fun x => lift (ls.wave inside rs) (if Holds m (groupReg rs g) x then p.wave true (gs.map (groupReg rs)) x else Verif.ket x)) =
      (Lines.control m p g gs ls).wave inside rs from funext fun x => by
        simp only [Lines.wave, lift_eq]] at this
end

theorem used_flatten (u : ℕ → Prop) (rs : List Reg) {q : ℕ} (h : q ∈ usedQ u rs) : q ∈ rs.flatten := by
  obtain ⟨k, -, hk⟩ := h
  by_cases hl : k < rs.length
  · rw [List.getD_eq_getElem _ _ hl] at hk
    exact List.mem_flatten.mpr ⟨_, List.getElem_mem hl, hk⟩
  · rw [List.getD_eq_default _ _ (by omega)] at hk
    cases hk

/-- programs that are apart commute -/
theorem apart_commute {p q : Prog} (ha : Apart p q) {rs : List Reg} (hp : p.Takes false rs) (hq : q.Takes false rs) (hn : rs.flatten.Nodup) (ψ : Wave) :
    lift (p.wave false rs) (lift (q.wave false rs) ψ) = lift (q.wave false rs) (lift (p.wave false rs) ψ) := by
  have : lift (p.wave false rs) ∘ₗ lift (q.wave false rs) = lift (q.wave false rs) ∘ₗ lift (p.wave false rs) := wave_ext fun x => by
    rw [LinearMap.comp_apply, LinearMap.comp_apply, lift_ket, lift_ket]
    refine commute_of (p.localOn false rs hp hn) (q.localOn false rs hq hn) (fun i h1 h2 x => ?_) (R := rs.flatten) (fun i h => h.elim (used_flatten _ _) (used_flatten _ _)) x
    obtain ⟨k, k1, k2⟩ := h1
    obtain ⟨l, l1, l2⟩ := h2
    obtain rfl := mem_unique hn k2 l2
    obtain ⟨s1, s2⟩ := ha k k1 l1
    exact ⟨(p.leaves k s1 false rs hp hn x).mono fun y hy => hy i k2, (q.leaves k s2 false rs hq hn x).mono fun y hy => hy i k2⟩
  exact LinearMap.congr_fun this ψ

end Verif
