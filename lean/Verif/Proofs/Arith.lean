import Verif.Proofs.Classical
import Verif.Spec.Arith
import Verif.Proofs.InvertFn

/-! # The adder's building blocks -/

namespace Verif
open Classical RegOps CircuitBuilder Rooted

variable {ang : Rot → ℝ} {β : Type} [Recursive β] [Rooted β] [Sim β]

/-- only the lengths of the registers matter -/
theorem valid_shape {rs rs' : List Reg} {gs : List (List Sel)} (h : rs.map List.length = rs'.map List.length) (hv : ValidGroups rs' gs) :
    ValidGroups rs gs := by
  have hl : ∀ i, (rs.getD i []).length = (rs'.getD i []).length := by
    intro i
    have := congrArg (fun l => l.getD i ([] : Reg).length) h
    simpa only [List.getD_map] using this
  have hs : selPos rs = selPos rs' := by
    funext s
    unfold selPos
    rw [hl]
  have hg : groupPos rs = groupPos rs' := by
    funext g
    unfold groupPos
    rw [hs]
  have hlen : rs.length = rs'.length := by simpa using congrArg List.length h
  refine ⟨by rw [hg]; exact hv.ne, by rw [hg]; exact hv.nodup, by rw [hlen]; exact hv.reg, ?_⟩
  rw [hg]
  intro p hp
  have := hv.pos p hp
  unfold HasPos at this ⊢
  rwa [hl, hlen]

theorem flipQ_eq (q : ℕ) (x : Asg) : flipQ q x = Function.update x q (!x q) := by
  funext p
  by_cases h : p = q
  · subst h; rw [flipQ_self, Function.update_self]
  · rw [flipQ_of_ne q p h, Function.update_of_ne h]

/-- conditioned on one qubit -/
theorem ctl1 (c q : ℕ) (x : Asg) : (if ∀ d ∈ [c], x d = true then flipQ q x else x) = Function.update x q (xor (x q) (x c)) := by
  rw [flipQ_eq]
  cases h : x c <;> simp [h]

theorem ctl2 (c d q : ℕ) (x : Asg) : (if ∀ e ∈ [c, d], x e = true then flipQ q x else x) = Function.update x q (xor (x q) (x c && x d)) := by
  rw [flipQ_eq]
  cases h : x c <;> cases h' : x d <;> simp [h, h']

theorem Maps.sum (cs : List Reg) (c a b : ℕ) : Maps ang cs (Arith.sum [[c], [a], [b]] : M β _) [[c], [a], [b]] [c, a, b] (sumMap c a b) := by
  have hk : ∀ x q, q ∉ ([[c], [a], [b]] : List Reg).flatten → sumMap c a b x q = x q := by
    intro x q hq
    unfold sumMap
    rw [Function.update_of_ne]
    rintro rfl
    simp at hq
  refine Maps.program (rs := [[c], [a], [b]]) (by simp) hk fun hn => ?_
  have hn' : [c, a, b].Nodup := hn
  simp only [List.nodup_cons, List.mem_cons, List.not_mem_nil, or_false, not_or] at hn'
  obtain ⟨⟨n1, n2⟩, n3, -⟩ := hn'
  have v1 : ValidGroups [[c], [a], [b]] [[(1, none)], [(2, none)]] :=
    valid_shape (rs' := [[0], [1], [2]]) rfl ⟨by decide, by decide, by decide, by unfold HasPos; decide⟩
  have v2 : ValidGroups [[c], [a], [b]] [[(0, none)], [(2, none)]] :=
    valid_shape (rs' := [[0], [1], [2]]) rfl ⟨by decide, by decide, by decide, by unfold HasPos; decide⟩
  have h1 : Maps ang cs _ _ _ _ := Maps.lines_nil (β := β) (rs := [[c], [a], [b]])
  have h2 := Maps.lines_cons hn (l := .control none (Verif.op1 Gate.x) [[(0, none)], [(2, none)]])
    v2
    (Maps.control_x (rs := [[c], [a], [b]]) (q := b) (by simp [groupReg, groupPos, selPos]) rfl) rfl h1
  have h3 := Maps.lines_cons hn (l := .control none (Verif.op1 Gate.x) [[(1, none)], [(2, none)]])
    v1
    (Maps.control_x (rs := [[c], [a], [b]]) (q := b) (by simp [groupReg, groupPos, selPos]) rfl) rfl h2
  refine h3.congr fun x => ?_
  have e0 : groupReg [[c], [a], [b]] [(0, none)] = [c] := rfl
  have e1 : groupReg [[c], [a], [b]] [(1, none)] = [a] := rfl
  rw [e0, e1, ctl1, ctl1]
  unfold sumMap
  rw [Function.update_self, Function.update_of_ne (by simpa using n2), Function.update_idem]
  simp only [id]
  congr 1
  cases x a <;> cases x b <;> cases x c <;> rfl

theorem Maps.carry (cs : List Reg) (c a b d : ℕ) :
    Maps ang cs (Arith.carry [[c], [a], [b], [d]] : M β _) [[c], [a], [b], [d]] [c, a, b, d] (carryMap c a b d) := by
  have hk : ∀ x q, q ∉ ([[c], [a], [b], [d]] : List Reg).flatten → carryMap c a b d x q = x q := by
    intro x q hq
    unfold carryMap
    rw [Function.update_of_ne]
    rintro rfl
    simp at hq
  refine Maps.program (rs := [[c], [a], [b], [d]]) (by simp) hk fun hn => ?_
  have hn' : [c, a, b, d].Nodup := hn
  simp only [List.nodup_cons, List.mem_cons, List.not_mem_nil, or_false, not_or] at hn'
  obtain ⟨⟨n1, n2, n3⟩, ⟨n4, n5⟩, n6, -⟩ := hn'
  have e1 : groupReg [[c], [a], [b], [d]] [(1, none), (2, none)] = [a, b] := rfl
  have e2 : groupReg [[c], [a], [b], [d]] [(1, none)] = [a] := rfl
  have e3 : groupReg [[c], [a], [b], [d]] [(0, none), (2, none)] = [c, b] := rfl
  have h1 : Maps ang cs _ _ _ _ := Maps.lines_nil (β := β) (rs := [[c], [a], [b], [d]])
  have v2 : ValidGroups [[c], [a], [b], [d]] [[(1, none)], [(2, none)]] :=
    valid_shape (rs' := [[0], [1], [2], [3]]) rfl ⟨by decide, by decide, by decide, by unfold HasPos; decide⟩
  have v3 : ValidGroups [[c], [a], [b], [d]] [[(0, none), (2, none)], [(3, none)]] :=
    valid_shape (rs' := [[0], [1], [2], [3]]) rfl ⟨by decide, by decide, by decide, by unfold HasPos; decide⟩
  have v1 : ValidGroups [[c], [a], [b], [d]] [[(1, none), (2, none)], [(3, none)]] :=
    valid_shape (rs' := [[0], [1], [2], [3]]) rfl ⟨by decide, by decide, by decide, by unfold HasPos; decide⟩
  have h2 := Maps.lines_cons hn (l := .control none (Verif.op1 Gate.x) [[(1, none)], [(2, none)]]) v2
    (Maps.control_x (rs := [[c], [a], [b], [d]]) (q := b) (by rw [e2]; simp) rfl) rfl h1
  have h3 := Maps.lines_cons hn (l := .control none (Verif.op1 Gate.x) [[(0, none), (2, none)], [(3, none)]]) v3
    (Maps.control_x (rs := [[c], [a], [b], [d]]) (q := d) (by rw [e3]; simp) rfl) rfl h2
  have h4 := Maps.lines_cons hn (l := .control none (Verif.op1 Gate.x) [[(1, none)], [(2, none)]]) v2
    (Maps.control_x (rs := [[c], [a], [b], [d]]) (q := b) (by rw [e2]; simp) rfl) rfl h3
  have h5 := Maps.lines_cons hn (l := .control none (Verif.op1 Gate.x) [[(1, none), (2, none)], [(3, none)]]) v1
    (Maps.control_x (rs := [[c], [a], [b], [d]]) (q := d) (by rw [e1]; simp) rfl) rfl h4
  refine h5.congr fun x => ?_
  rw [e1, e2, e3]
  simp only [ctl1, ctl2, id]
  funext q
  unfold carryMap maj
  simp only [Function.update_apply, n1, n2, n3, n4, n5, n6, Ne.symm n1, Ne.symm n2, Ne.symm n3, Ne.symm n4, Ne.symm n5, Ne.symm n6, if_true, if_false]
  by_cases hqd : q = d
  · subst hqd
    simp only [Ne.symm n6, if_true, if_false]
    cases x a <;> cases x b <;> cases x c <;> cases x q <;> rfl
  · by_cases hqb : q = b
    · subst hqb
      simp only [n6, if_true, if_false]
      cases x a <;> cases x q <;> rfl
    · simp only [hqd, hqb, if_false]

/-! ## inverses of classical functions -/

theorem Maps.inverse (hang : ∀ ρ, ang (Rot.neg ρ) = -ang ρ) {f : List Reg → M LocalBuilder (List Reg)} {rs : List Reg}
    (hne : rs ≠ []) (hr : ∀ r ∈ rs, r ≠ []) {a : List Reg} {Φ Ψ : Asg → Asg}
    (hf : Maps ang [] (f (ranges 0 (rs.map List.length))) a (List.range rs.flatten.length) Φ)
    (hΨ : ∀ z ∈ Low rs.flatten.length, Ψ z ∈ Low rs.flatten.length ∧ Φ (Ψ z) = z)
    (ht : ∃ z ∈ Low rs.flatten.length, Φ z (rs.flatten.length - 1) ≠ z (rs.flatten.length - 1)) :
    Maps ang [] (invertFn f rs : M LocalBuilder _) rs rs.flatten (fun x => emb rs.flatten x (Ψ (pull rs.flatten x))) ∧
    Maps ang [] (inverter rs f : M LocalBuilder _) rs rs.flatten (fun x => emb rs.flatten x (Ψ (pull rs.flatten x))) := by
  have hf0 := hf.does ⟨[], rs.flatten.length, [], 0⟩ [] rfl (by
    show Own _ ([] ++ _ ++ [])
    rw [List.nil_append, List.append_nil]; exact fresh_own _)
  have hU : ∀ x, ket (if ∀ c ∈ ([] : List Reg).flatten, x c = true then Φ x else x) = ket (Φ x) := fun x => by simp
  simp only [hU] at hf0
  have hmax : ∀ b, f (ranges 0 (rs.map List.length)) ⟨[], rs.flatten.length, [], 0⟩ = .ok a b →
      ∃ m, maxIndex b.pipeline = some m ∧ rs.flatten.length ≤ m + 1 := by
    intro b hb
    obtain ⟨b', f1, -, -, f4⟩ := hf0
    rw [hb] at f1
    injection f1 with _ f1
    subst f1
    obtain ⟨seg, g1, -, g3⟩ := f4.seg
    obtain ⟨z, hz, hz2⟩ := ht
    have h1 := (g3 z ((fresh_clean _ z).mpr hz)).1
    have g1' : b.pipeline = seg := g1
    have : ¬ On {y | y (rs.flatten.length - 1) = z (rs.flatten.length - 1)} (runW ang seg (ket z)) := by
      rw [h1]
      intro hon
      have := on_iff.mp hon (Φ z) (by unfold ket; rw [Finsupp.support_single _ one_ne_zero]; simp)
      exact hz2 this
    obtain ⟨m, m1, m2⟩ := maxIndex_of_touched (touched this)
    exact ⟨m, by rw [g1']; exact m1, by omega⟩
  have hV : ∀ z ∈ Low rs.flatten.length, On (Low rs.flatten.length) (ket (Ψ z)) ∧ lift (fun x => ket (Φ x)) (ket (Ψ z)) = ket z := by
    intro z hz
    refine ⟨On.ket (hΨ z hz).1, ?_⟩
    rw [lift_ket, (hΨ z hz).2]
  have hk : ∀ x q, q ∉ rs.flatten → emb rs.flatten x (Ψ (pull rs.flatten x)) q = x q := fun x q hq => emb_not_mem _ _ _ _ hq
  have key : ∀ x, moveW rs.flatten (fun z => ket (Ψ z)) x = ket (if ∀ c ∈ ([] : List Reg).flatten, x c = true then
      emb rs.flatten x (Ψ (pull rs.flatten x)) else x) := by
    intro x
    rw [moveW_eq, embW_ket, if_pos (by simp)]
  constructor
  · refine ⟨hk, fun s L _ ho => ?_⟩
    exact (inverter_does hang hne hr hf0 hmax _ hV (s := s) (L := L) ho).2.congrU fun x _ => key x
  · refine ⟨hk, fun s L _ ho => ?_⟩
    exact (inverter_does hang hne hr hf0 hmax _ hV (s := s) (L := L) ho).1.congrU fun x _ => key x

end Verif
