import Verif.Proofs.Arith
import Verif.Proofs.Calc2

/-! # The ripple adder -/

namespace Verif
open Classical RegOps CircuitBuilder Rooted

variable {ang : Rot → ℝ}

theorem ranges_getD (rs : List Reg) :
    (ranges 0 (rs.map List.length)).map (List.map fun i => rs.flatten.getD i 0) = rs := by
  have h := at_ranges rs []
  exact h

/-- `y` is `x` seen through `g` -/
def Seen (g : ℕ → ℕ) (S : List ℕ) (y x : Asg) : Prop := ∀ i ∈ S, y i = x (g i)

/-- a map given by what it does on the qubits `0, 1, …` -/
theorem emb_of_seen (rs : List Reg) (hn : rs.flatten.Nodup) (x : Asg) (Φ φ : Asg → Asg) (hk : ∀ q, q ∉ rs.flatten → φ x q = x q)
    (h : ∀ g : ℕ → ℕ, Set.InjOn g {i | i ∈ (ranges 0 (rs.map List.length)).flatten} → rs = (ranges 0 (rs.map List.length)).map (List.map g) →
      ∀ y, Seen g (ranges 0 (rs.map List.length)).flatten y x → Seen g (ranges 0 (rs.map List.length)).flatten (Φ y) (φ x)) :
    emb rs.flatten x (Φ (pull rs.flatten x)) = φ x := by
  have hfl : (ranges 0 (rs.map List.length)).flatten = List.range rs.flatten.length := by
    rw [ranges_flatten, List.range_eq_range', List.length_flatten]
  have h1 := h (fun i => rs.flatten.getD i 0) (by
    intro i hi j hj hij
    rw [hfl] at hi hj
    simp only [Set.mem_setOf_eq, List.mem_range] at hi hj
    simp only [List.getD_eq_getElem _ _ hi, List.getD_eq_getElem _ _ hj] at hij
    exact (hn.getElem_inj_iff).mp hij) (ranges_getD rs).symm (pull rs.flatten x) (by
    intro i hi
    rw [hfl, List.mem_range] at hi
    unfold pull
    rw [if_pos hi])
  funext q
  by_cases hq : q ∈ rs.flatten
  · have hi := List.idxOf_lt_length_of_mem hq
    unfold emb
    rw [if_pos hq, h1 _ (by rw [hfl]; exact List.mem_range.mpr hi)]
    show φ x (rs.flatten.getD _ 0) = _
    rw [List.getD_eq_getElem _ _ hi, List.getElem_idxOf]
  · rw [emb_not_mem _ _ _ _ hq, hk q hq]

theorem Seen.update {g : ℕ → ℕ} {S : List ℕ} (hg : Set.InjOn g {i | i ∈ S}) {y x : Asg} (h : Seen g S y x) (d : ℕ) (hd : d ∈ S) (v : Bool) :
    Seen g S (Function.update y d v) (Function.update x (g d) v) := by
  intro i hi
  by_cases hid : i = d
  · subst hid; rw [Function.update_self, Function.update_self]
  · rw [Function.update_of_ne hid, Function.update_of_ne fun he => hid (hg hi hd he), h i hi]

theorem Seen.sum {g : ℕ → ℕ} {S : List ℕ} (hg : Set.InjOn g {i | i ∈ S}) {y x : Asg} (h : Seen g S y x) {c a b : ℕ} (hc : c ∈ S)
    (ha : a ∈ S) (hb : b ∈ S) : Seen g S (sumMap c a b y) (sumMap (g c) (g a) (g b) x) := by
  unfold sumMap
  rw [h c hc, h a ha, h b hb]
  exact h.update hg b hb _

theorem Seen.carry {g : ℕ → ℕ} {S : List ℕ} (hg : Set.InjOn g {i | i ∈ S}) {y x : Asg} (h : Seen g S y x) {c a b d : ℕ} (hc : c ∈ S)
    (ha : a ∈ S) (hb : b ∈ S) (hd : d ∈ S) : Seen g S (carryMap c a b d y) (carryMap (g c) (g a) (g b) (g d) x) := by
  unfold carryMap
  rw [h c hc, h a ha, h b hb, h d hd]
  exact h.update hg d hd _

theorem carryMap_carryMap (c a b d : ℕ) (hn : [c, a, b, d].Nodup) (x : Asg) : carryMap c a b d (carryMap c a b d x) = x := by
  simp only [List.nodup_cons, List.mem_cons, List.not_mem_nil, or_false, not_or] at hn
  obtain ⟨⟨n1, n2, n3⟩, ⟨n4, n5⟩, n6, -⟩ := hn
  unfold carryMap
  rw [Function.update_of_ne n3, Function.update_of_ne n5, Function.update_of_ne n6, Function.update_self, Function.update_idem, Bool.xor_assoc,
    Bool.xor_self, Bool.xor_false, Function.update_eq_self]

theorem sumMap_sumMap (c a b : ℕ) (hn : [c, a, b].Nodup) (x : Asg) : sumMap c a b (sumMap c a b x) = x := by
  simp only [List.nodup_cons, List.mem_cons, List.not_mem_nil, or_false, not_or] at hn
  obtain ⟨⟨n1, n2⟩, n3, -⟩ := hn
  unfold sumMap
  rw [Function.update_of_ne n2, Function.update_of_ne n3, Function.update_self, Function.update_idem]
  have : (x a ^^ (x a ^^ (x b ^^ x c) ^^ x c)) = x b := by cases x a <;> cases x b <;> cases x c <;> rfl
  rw [this, Function.update_eq_self]

theorem Maps.carryInv (hang : ∀ ρ, ang (Rot.neg ρ) = -ang ρ) (c a b d : ℕ) :
    Maps ang [] (Arith.carryInv [[c], [a], [b], [d]] : M LocalBuilder _) [[c], [a], [b], [d]] [c, a, b, d] (carryMap c a b d) := by
  have hk : ∀ x q, q ∉ [c, a, b, d] → carryMap c a b d x q = x q := (Maps.carry (ang := ang) (β := LocalBuilder) [] c a b d).keeps
  refine Maps.of_nodup hk fun hn => ?_
  refine (Maps.inverse (rs := [[c], [a], [b], [d]]) hang (by simp) (by simp) (Φ := carryMap 0 1 2 3) (Ψ := carryMap 0 1 2 3)
    (Maps.carry [] 0 1 2 3) ?_ ?_).1.congr fun x => ?_
  · intro z hz
    refine ⟨fun i hi => ?_, carryMap_carryMap 0 1 2 3 (by decide) z⟩
    have hi' : 4 ≤ i := hi
    unfold carryMap
    rw [Function.update_of_ne (by omega)]
    exact hz i hi
  · refine ⟨fun q => decide (q < 3), fun i hi => ?_, ?_⟩
    · have hi' : 4 ≤ i := hi
      simp; omega
    · show carryMap 0 1 2 3 (fun q => decide (q < 3)) 3 ≠ decide (3 < 3)
      simp [carryMap, maj]
  · refine emb_of_seen [[c], [a], [b], [d]] hn x _ _ (hk x) fun g hg he y hy => ?_
    have he' : [[c], [a], [b], [d]] = [[g 0], [g 1], [g 2], [g 3]] := he
    simp only [List.cons.injEq, and_true] at he'
    obtain ⟨rfl, rfl, rfl, rfl⟩ := he'
    have hm : ∀ i < 4, i ∈ (ranges 0 ([[g 0], [g 1], [g 2], [g 3]].map List.length)).flatten := fun i hi => by
      show i ∈ List.range 4
      exact List.mem_range.mpr hi
    exact hy.carry hg (hm 0 (by omega)) (hm 1 (by omega)) (hm 2 (by omega)) (hm 3 (by omega))

end Verif
