import Verif.Spec.Defer
import Verif.Proofs.Teleport

/-! # Programs that leave a register as it is -/

namespace Verif
open Complex

/-- the values of the qubits of `r` stay -/
def KeepsReg (r : Reg) (U : Asg → Wave) : Prop := ∀ x, On {y | ∀ q ∈ r, y q = x q} (U x)

theorem KeepsReg.same (r : Reg) : KeepsReg r ket := fun _ => On.ket fun _ _ => rfl

theorem KeepsReg.comp {r : Reg} {U V : Asg → Wave} (hU : KeepsReg r U) (hV : KeepsReg r V) : KeepsReg r fun x => lift V (U x) := fun x =>
  (hU x).map _ fun y hy => by
    rw [lift_ket]
    exact (hV y).mono fun z hz q hq => (hz q hq).trans (hy q hq)

theorem KeepsReg.dagger {r : Reg} {U : Asg → Wave} (h : KeepsReg r U) (Q : List ℕ) : KeepsReg r (daggerW Q U) := fun x => by
  unfold daggerW
  refine Submodule.sum_mem _ fun v _ => ?_
  by_cases h0 : U (writeQ Q v x) x = 0
  · rw [h0, map_zero, zero_smul]
    exact Submodule.zero_mem _
  · have hk : On {y | ∀ q ∈ r, y q = x q} (Verif.ket (writeQ Q v x)) :=
      On.ket fun q hq => (on_iff.mp (h (writeQ Q v x)) x (Finsupp.mem_support_iff.mpr h0) q hq).symm
    exact hk.smul _

theorem flipIf_leaves {c : Reg} {r : Reg} (hd : List.Disjoint c r) (z : ℂ) : KeepsReg c (flipIf z c r) := fun x => by
  unfold flipIf
  split
  · have hk : On {y | ∀ q ∈ c, y q = x q} (ket (flipAll r x)) := On.ket fun q hq => by
      unfold flipAll
      rw [if_neg (fun h => hd hq h)]
    exact hk.smul _
  · exact On.ket fun _ _ => rfl

theorem gate_leaves {r : Reg} {R : Reg} (hd : ∀ q ∈ r, q ∉ R) (M : ℕ → ℕ → ℂ) : KeepsReg r fun x => gateW R M (ket x) := fun x => by
  show On _ (gateW R M (ket x))
  rw [gateW_ket]
  refine Submodule.sum_mem _ fun v _ => ?_
  have hk : On {y | ∀ q ∈ r, y q = x q} (ket (writeQ R v x)) := On.ket fun q hq => writeQ_not_mem _ _ _ _ (hd q hq)
  exact hk.smul _

theorem diag_leaves {q : ℕ} {M : ℕ → ℕ → ℂ} (hM : ∀ i < 2, ∀ j < 2, i ≠ j → M i j = 0) (x : Asg) : On {y | y = x} (gateW [q] M (ket x)) := by
  rw [gateW_ket]
  refine Submodule.sum_mem _ fun v hv => ?_
  have hr : readQ [q] x < 2 := by simpa using readQ_lt [q] x
  by_cases hc : v = readQ [q] x
  · have hk : On {y | y = x} (ket (writeQ [q] v x)) := On.ket (by rw [hc]; exact writeQ_readQ _ _)
    exact hk.smul _
  · rw [hM v (by simpa using hv) _ hr hc, zero_smul]
    exact Submodule.zero_mem _

theorem diags_leaves {M : ℕ → ℕ → ℂ} (hM : ∀ i < 2, ∀ j < 2, i ≠ j → M i j = 0) (r : Reg) (x : Asg) : On {y | y = x} (eachW M r (ket x)) := by
  induction r with
  | nil => exact On.ket rfl
  | cons q r ih =>
    refine (diag_leaves hM x).map (eachW M r) fun y hy => ?_
    rw [show y = x from hy]
    exact ih

theorem four_regs {rs : List Reg} (h : rs.length = 4) : ∃ c a b d, rs = [c, a, b, d] := by
  match rs, h with
  | [c, a, b, d], _ => exact ⟨c, a, b, d, rfl⟩

theorem Method.leaves (m : Method) (k : ℕ) (hs : m.Spares k) (inside : Bool) (rs : List Reg) (hT : m.Takes inside rs) (hn : rs.flatten.Nodup) :
    KeepsReg (rs.getD k []) (m.wave inside rs) := by
  have two : ∀ {c r : Reg}, ([c, r] : List Reg).flatten.Nodup → List.Disjoint c r := fun {c r} h => by
    have := List.disjoint_of_nodup_append (by simpa using h : (c ++ r).Nodup)
    exact this
  have one : ∀ {r : Reg} {M : ℕ → ℕ → ℂ}, (∀ i < 2, ∀ j < 2, i ≠ j → M i j = 0) → r.length = 1 → KeepsReg r fun x => gateW r M (ket x) := fun {r M} hM hr => by
    obtain ⟨q, rfl⟩ := List.length_eq_one_iff.mp hr
    exact fun x => (diag_leaves hM x).mono fun y hy q _ => congrFun (show y = x from hy) q
  have dz : ∀ θ, ∀ i < 2, ∀ j < 2, i ≠ j → rzMat θ i j = 0 := fun θ i hi j hj hij => by
    interval_cases i <;> interval_cases j <;> first | exact absurd rfl hij | rfl
  cases m with
  | named g =>
    obtain ⟨rfl, hg⟩ := hs
    have h1 : ∀ i < 2, ∀ j < 2, i ≠ j → (if inside then g.condMat else g.mat) i j = 0 := fun i hi j hj hij => by
      cases inside <;> rcases hg with rfl | rfl | rfl | rfl | rfl <;> interval_cases i <;> interval_cases j <;> first | exact absurd rfl hij | rfl
    match rs, hT with
    | [r], _ => exact fun x => (diags_leaves h1 r x).mono fun y hy q _ => congrFun (show y = x from hy) q
  | rz θ =>
    obtain rfl : k = 0 := hs
    match rs, hT with
    | [r], hT => exact one (dz _) hT.2
  | rzRatio θ =>
    obtain rfl : k = 0 := hs
    match rs, hT with
    | [r], hT => exact one (dz _) hT.2
  | rzPiBy m =>
    obtain rfl : k = 0 := hs
    match rs, hT with
    | [r], hT => exact one (dz _) hT.2.1
  | cnot =>
    obtain rfl : k = 0 := hs
    match rs, hT with
    | [c, r], _ => exact flipIf_leaves (two hn) 1
  | toffoli =>
    obtain rfl : k = 0 := hs
    match rs, hT with
    | [c, r], hT =>
      intro x
      have hd := two hn
      show On _ (if inside = true ∧ c.length = 2 then turnIf c (r.headD 0) x else flipIf (if c.length = 1 then 1 else (-Complex.I) ^ (r.length - 1)) c r x)
      split
      · unfold turnIf
        split
        · refine gate_leaves (fun q hq => ?_) _ x
          obtain ⟨a, r', rfl⟩ := List.exists_cons_of_ne_nil hT.2.1
          rw [List.headD_cons, List.mem_singleton]
          rintro rfl
          exact hd hq (by simp)
        · exact On.ket fun _ _ => rfl
      · exact flipIf_leaves hd _ x
  | copy =>
    obtain rfl : k = 0 := hs
    match rs, hT with
    | [a, b], _ => exact fun x => On.ket fun q hq => by unfold xorMap; rw [if_neg fun h => two hn hq h]
  | copyInv =>
    obtain rfl : k = 0 := hs
    match rs, hT with
    | [a, b], _ => exact fun x => On.ket fun q hq => by unfold xorMap; rw [if_neg fun h => two hn hq h]
  | sum =>
    have hk : k < 2 := hs
    have hl : rs.map List.length = [1, 1, 1] := hT
    obtain ⟨c, a, b, rfl⟩ : ∃ c a b, rs = [c, a, b] := List.length_eq_three.mp (by simpa using congrArg List.length hl)
    simp only [List.map_cons, List.map_nil, List.cons.injEq, List.length_eq_one_iff, and_true] at hl
    obtain ⟨⟨c, rfl⟩, ⟨a, rfl⟩, ⟨b, rfl⟩⟩ := hl
    simp only [List.flatten_cons, List.flatten_nil, List.append_nil, List.singleton_append, List.nodup_cons, List.mem_cons, List.not_mem_nil, or_false, not_or] at hn
    refine fun x => On.ket fun q hq => Function.update_of_ne ?_ _ _
    interval_cases k
    · have : q = c := by simpa using hq
      subst this; exact hn.1.2
    · have : q = a := by simpa using hq
      subst this; exact hn.2.1
  | carry =>
    have hk : k < 3 := hs
    have hl : rs.map List.length = [1, 1, 1, 1] := hT
    obtain ⟨c, a, b, d, rfl⟩ := four_regs (by simpa using congrArg List.length hl : rs.length = 4)
    simp only [List.map_cons, List.map_nil, List.cons.injEq, List.length_eq_one_iff, and_true] at hl
    obtain ⟨⟨c, rfl⟩, ⟨a, rfl⟩, ⟨b, rfl⟩, ⟨d, rfl⟩⟩ := hl
    simp only [List.flatten_cons, List.flatten_nil, List.append_nil, List.singleton_append, List.nodup_cons, List.mem_cons, List.not_mem_nil, or_false, not_or] at hn
    refine fun x => On.ket fun q hq => Function.update_of_ne ?_ _ _
    interval_cases k
    · have : q = c := by simpa using hq
      subst this; exact hn.1.2.2
    · have : q = a := by simpa using hq
      subst this; exact hn.2.1.2
    · have : q = b := by simpa using hq
      subst this; exact hn.2.2.1
  | carryInv =>
    have hk : k < 3 := hs
    have hl : rs.map List.length = [1, 1, 1, 1] := hT.2
    obtain ⟨c, a, b, d, rfl⟩ := four_regs (by simpa using congrArg List.length hl : rs.length = 4)
    simp only [List.map_cons, List.map_nil, List.cons.injEq, List.length_eq_one_iff, and_true] at hl
    obtain ⟨⟨c, rfl⟩, ⟨a, rfl⟩, ⟨b, rfl⟩, ⟨d, rfl⟩⟩ := hl
    simp only [List.flatten_cons, List.flatten_nil, List.append_nil, List.singleton_append, List.nodup_cons, List.mem_cons, List.not_mem_nil, or_false, not_or] at hn
    refine fun x => On.ket fun q hq => Function.update_of_ne ?_ _ _
    interval_cases k
    · have : q = c := by simpa using hq
      subst this; exact hn.1.2.2
    · have : q = a := by simpa using hq
      subst this; exact hn.2.1.2
    · have : q = b := by simpa using hq
      subst this; exact hn.2.2.1
  | _ => exact absurd hs (by simp [Method.Spares])

/-- the register of a qubit is the only one with this qubit -/
theorem mem_unique {rs : List Reg} (hn : rs.flatten.Nodup) {i k q : ℕ} (hi : q ∈ rs.getD i []) (hk : q ∈ rs.getD k []) : i = k := by
  induction rs generalizing i k with
  | nil => simp at hi
  | cons r rs ih =>
    rw [List.flatten_cons] at hn
    obtain ⟨-, h2, h3⟩ := List.nodup_append.mp hn
    have hf : ∀ j, q ∈ rs.getD j [] → q ∈ rs.flatten := fun j hj => by
      by_cases hl : j < rs.length
      · rw [List.getD_eq_getElem _ _ hl] at hj
        exact List.mem_flatten.mpr ⟨_, List.getElem_mem hl, hj⟩
      · rw [List.getD_eq_default _ _ (by omega)] at hj
        cases hj
    match i, k with
    | 0, 0 => rfl
    | 0, k + 1 => exact absurd rfl (h3 q (by simpa using hi) q (hf k (by simpa using hk)))
    | i + 1, 0 => exact absurd rfl (h3 q (by simpa using hk) q (hf i (by simpa using hi)))
    | i + 1, k + 1 => rw [ih h2 (i := i) (k := k) (by simpa using hi) (by simpa using hk)]

/-- a qubit of the group is a qubit of one of the registers it names -/
theorem mem_group {rs : List Reg} (hn : rs.flatten.Nodup) {gs : List (List Sel)} (hv : ValidGroups rs gs) {g : List Sel} (hg : g ∈ gs) {k q : ℕ}
    (hq : q ∈ groupReg rs g) (hk : q ∈ rs.getD k []) : ∃ s ∈ g, s.1 = k := by
  obtain ⟨pos, hp, rfl⟩ := List.mem_map.mp hq
  have hpos := hv.pos pos (List.mem_flatMap.mpr ⟨g, hg, hp⟩)
  obtain ⟨s, hs, hps⟩ := List.mem_flatMap.mp hp
  refine ⟨s, hs, ?_⟩
  have e : pos.1 = s.1 := by
    unfold selPos at hps
    obtain ⟨i, -, rfl⟩ := List.mem_map.mp hps
    rfl
  rw [← e]
  refine mem_unique hn ?_ hk
  unfold qubitAt
  rw [List.getD_eq_getElem _ _ hpos.2]
  exact List.getElem_mem _

/-- one call of a line -/
theorem call_leaves {rs : List Reg} (hn : rs.flatten.Nodup) {gs : List (List Sel)} (hv : ValidGroups rs gs) {k : ℕ} {p : Prog} {inside : Bool}
    (hp : p.Takes inside (gs.map (groupReg rs))) (h : ∀ (j : ℕ) (g : List Sel), gs[j]? = some g → (∃ s ∈ g, s.1 = k) → KeepsReg (groupReg rs g) (p.wave inside (gs.map (groupReg rs)))) :
    KeepsReg (rs.getD k []) (p.wave inside (gs.map (groupReg rs))) := fun x => on_iff.mpr fun y hy q hq => by
  by_cases hm : ∃ g ∈ gs, q ∈ groupReg rs g
  · obtain ⟨g, hg, hqg⟩ := hm
    obtain ⟨j, hj, e⟩ := List.mem_iff_getElem.mp hg
    exact on_iff.mp (h j g (by rw [List.getElem?_eq_getElem hj, e]) (mem_group hn hv hg hqg hq) x) y hy q hqg
  · refine (Props.C105_local p inside _ hp (groups_nodup rs hn gs hv).1 x).1 y hy q fun hc => hm ?_
    obtain ⟨r, hr, hqr⟩ := List.mem_flatten.mp hc
    obtain ⟨g, hg, rfl⟩ := List.mem_map.mp hr
    exact ⟨g, hg, hqr⟩

theorem getD_group (rs : List Reg) (gs : List (List Sel)) {j : ℕ} {g : List Sel} (h : gs[j]? = some g) : (gs.map (groupReg rs)).getD j [] = groupReg rs g := by
  rw [List.getD_eq_getElem?_getD, List.getElem?_map, h]
  rfl

mutual
theorem Prog.leaves : (p : Prog) → (k : ℕ) → p.Spares k → (inside : Bool) → (rs : List Reg) → p.Takes inside rs → rs.flatten.Nodup →
    KeepsReg (rs.getD k []) (p.wave inside rs)
  | .call m, k, h, inside, rs, hT, hn => by
    simp only [Prog.Spares, Prog.Takes] at h hT
    have := m.leaves k h inside rs hT hn
    intro x
    simp only [Prog.wave]
    exact this x
  | .seq p q, k, h, inside, rs, hT, hn => by
    simp only [Prog.Spares, Prog.Takes] at h hT
    have := (p.leaves k h.1 inside rs hT.1 hn).comp (q.leaves k h.2 inside rs hT.2 hn)
    intro x
    simp only [Prog.wave]
    exact this x
  | .cond p, 0, _, inside, rs, hT, hn => by
    match rs, hT with
    | cr :: rs, hT =>
      simp only [Prog.Takes] at hT
      intro x
      simp only [Prog.wave]
      split
      · refine on_iff.mpr fun y hy q hq => ?_
        rw [List.flatten_cons] at hn
        exact (Props.C105_local p true rs hT.2 (List.nodup_append.mp hn).2.1 x).1 y hy q fun hc => (List.nodup_append.mp hn).2.2 q hq q hc rfl
      · exact On.ket fun _ _ => rfl
  | .cond p, k + 1, h, inside, rs, hT, hn => by
    match rs, hT with
    | cr :: rs, hT =>
      simp only [Prog.Spares, Prog.Takes] at h hT
      rw [List.flatten_cons] at hn
      have := p.leaves k h true rs hT.2 (List.nodup_append.mp hn).2.1
      intro x
      simp only [Prog.wave]
      split
      · exact this x
      · exact On.ket fun _ _ => rfl
  | .prog ls, k, h, inside, rs, hT, hn => by
    simp only [Prog.Spares, Prog.Takes] at h hT
    have := ls.leaves k h inside rs hT.2 hn
    intro x
    simp only [Prog.wave]
    exact this x
  | .sized F, k, h, inside, rs, hT, hn => by
    simp only [Prog.Spares, Prog.Takes] at h hT
    have := (F (rs.map List.length)).leaves k (h _) inside rs hT hn
    intro x
    simp only [Prog.wave]
    exact this x
  | .inv _ p, k, h, inside, rs, hT, hn => by
    simp only [Prog.Spares, Prog.Takes] at h hT
    obtain ⟨rfl, -, -, hp, -⟩ := hT
    have := (p.leaves k h false rs (takes_ranges hp) hn).dagger rs.flatten
    intro x
    simp only [Prog.wave]
    exact this x

theorem Lines.leaves : (ls : Lines) → (k : ℕ) → ls.Spares k → (inside : Bool) → (rs : List Reg) → ls.Takes inside rs → rs.flatten.Nodup →
    KeepsReg (rs.getD k []) (ls.wave inside rs)
  | .nil, k, _, inside, rs, _, _ => fun x => by
    simp only [Lines.wave]
    exact On.ket fun _ _ => rfl
  | .plain p gs ls, k, h, inside, rs, hT, hn => by
    simp only [Lines.Spares, Lines.Takes] at h hT
    have h1 := call_leaves hn hT.1 hT.2.1 (k := k) fun j g hj hk => by
      have := p.leaves j (h.1 j g hj hk) inside _ hT.2.1 (groups_nodup rs hn gs hT.1).1
      rwa [getD_group rs gs hj] at this
    have := h1.comp (ls.leaves k h.2 inside rs hT.2.2 hn)
    intro x
    simp only [Lines.wave]
    exact this x
  | .control m p g gs ls, k, h, inside, rs, hT, hn => by
    simp only [Lines.Spares, Lines.Takes] at h hT
    have hv : ValidGroups rs gs := by
      obtain ⟨v1, v2, v3, v4⟩ := hT.1
      rw [List.flatMap_cons] at v2 v4
      exact ⟨fun g hg => v1 g (by simp [hg]), (List.nodup_append.mp v2).2.1, fun g hg => v3 g (by simp [hg]), fun p hp => v4 p (List.mem_append_right _ hp)⟩
    have h1 := call_leaves hn hv hT.2.1 (k := k) fun j g hj hk => by
      have := p.leaves j (h.1 j g hj hk) true _ hT.2.1 (groups_nodup rs hn gs hv).1
      rwa [getD_group rs gs hj] at this
    classical
    have h2 : KeepsReg (rs.getD k []) fun x => if Holds m (groupReg rs g) x then p.wave true (gs.map (groupReg rs)) x else ket x := fun x => by
      by_cases hx : Holds m (groupReg rs g) x
      · simp only [if_pos hx]
        exact h1 x
      · simp only [if_neg hx]
        exact On.ket fun _ _ => rfl
    have := h2.comp (ls.leaves k h.2 inside rs hT.2.2 hn)
    intro x
    have e := this x
    simp only [Lines.wave, lift_eq]
    convert e
end

/-- a measurement of a register that is left as it is can come before or after -/
theorem KeepsReg.proj {r : Reg} {U : Asg → Wave} (h : KeepsReg r U) (m : ℕ) (ψ : Wave) : projW r m (lift U ψ) = lift U (projW r m ψ) := by
  have : projL r m ∘ₗ lift U = lift U ∘ₗ projL r m := wave_ext fun x => by
    have hx : On {y | valQ r y = valQ r x} (U x) := (h x).mono fun y hy => valQ_congr r y x hy
    rw [LinearMap.comp_apply, LinearMap.comp_apply, lift_ket, projL_ket, projL_apply]
    by_cases hm : valQ r x = m
    · rw [if_pos hm, lift_ket, projW_on (by rw [← hm]; exact hx)]
    · rw [if_neg hm, map_zero, projW_off hx hm]
  exact LinearMap.congr_fun this ψ

end Verif
