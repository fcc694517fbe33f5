import Verif.Props.IeeeMeasure2
import Mathlib.Algebra.Order.Floor.Semiring
import Mathlib.Order.Interval.Finset.Nat

/-!
# Counting draws
-/

namespace Verif
open Finset Classical

/-- evenly spaced numbers near a point -/
theorem card_near (N : ℕ) (hN : 0 < N) (c ρ : ℝ) (hρ : 0 ≤ ρ) :
    (((range N).filter fun j : ℕ => |(j : ℝ) / N - c| ≤ ρ).card : ℝ) ≤ 2 * ρ * N + 1 := by
  have hN' : (0 : ℝ) < N := by exact_mod_cast hN
  have hsub : ((range N).filter fun j : ℕ => |(j : ℝ) / N - c| ≤ ρ).map ⟨fun j : ℕ => (j : ℤ), Nat.cast_injective⟩ ⊆
      Icc ⌈(c - ρ) * N⌉ ⌊(c + ρ) * N⌋ := by
    intro z hz
    obtain ⟨j, hj, rfl⟩ := mem_map.mp hz
    have h := abs_le.mp (mem_filter.mp hj).2
    have e : (j : ℝ) = (j : ℝ) / N * N := by field_simp
    rw [mem_Icc, Int.ceil_le, Int.le_floor]
    simp only [Function.Embedding.coeFn_mk, Int.cast_natCast]
    constructor
    · rw [e]; exact mul_le_mul_of_nonneg_right (by linarith) hN'.le
    · rw [e]; exact mul_le_mul_of_nonneg_right (by linarith) hN'.le
  have h1 := card_le_card hsub
  rw [card_map, Int.card_Icc] at h1
  have h2 : ((⌊(c + ρ) * N⌋ + 1 - ⌈(c - ρ) * N⌉).toNat : ℝ) ≤ 2 * ρ * N + 1 := by
    rcases le_total 0 (⌊(c + ρ) * N⌋ + 1 - ⌈(c - ρ) * N⌉) with h | h
    · have : (((⌊(c + ρ) * N⌋ + 1 - ⌈(c - ρ) * N⌉).toNat : ℤ) : ℝ) = ((⌊(c + ρ) * N⌋ + 1 - ⌈(c - ρ) * N⌉ : ℤ) : ℝ) := by
        rw [Int.toNat_of_nonneg h]
      rw [Int.cast_natCast] at this
      rw [this]
      push_cast
      have a := Int.floor_le ((c + ρ) * N)
      have b := Int.le_ceil ((c - ρ) * (N : ℝ))
      nlinarith
    · rw [Int.toNat_of_nonpos h]
      have : 0 ≤ 2 * ρ * N := by positivity
      push_cast
      linarith
  exact le_trans (by exact_mod_cast h1) h2

/-- evenly spaced numbers in an interval -/
theorem card_between (N : ℕ) (hN : 0 < N) (a b : ℝ) (h0 : 0 ≤ a) (hab : a ≤ b) (hb : b ≤ 1) :
    |(((range N).filter fun j : ℕ => a ≤ (j : ℝ) / N ∧ (j : ℝ) / N < b).card : ℝ) - N * (b - a)| ≤ 1 := by
  have hN' : (0 : ℝ) < N := by exact_mod_cast hN
  have e : ((range N).filter fun j : ℕ => a ≤ (j : ℝ) / N ∧ (j : ℝ) / N < b) = Ico ⌈a * N⌉₊ ⌈b * N⌉₊ := by
    ext j
    rw [mem_filter, mem_range, mem_Ico, Nat.ceil_le, Nat.lt_ceil, le_div_iff₀ hN', div_lt_iff₀ hN']
    constructor
    · rintro ⟨-, h⟩; exact h
    · intro h
      refine ⟨?_, h⟩
      have : (j : ℝ) < N := h.2.trans_le (by nlinarith)
      exact_mod_cast this
  have hle : ⌈a * N⌉₊ ≤ ⌈b * N⌉₊ := Nat.ceil_mono (mul_le_mul_of_nonneg_right hab hN'.le)
  rw [e, Nat.card_Ico, Nat.cast_sub hle]
  have a1 := Nat.le_ceil (a * N)
  have b1 := Nat.le_ceil (b * N)
  have a2 := Nat.ceil_lt_add_one (mul_nonneg h0 hN'.le)
  have b2 := Nat.ceil_lt_add_one (mul_nonneg (h0.trans hab) hN'.le)
  rw [abs_le]
  constructor <;> nlinarith

theorem cumul_zero (a : ℕ → ℂ) : cumul a 0 = 0 := by simp [cumul]

/-- the basis state on which a draw falls -/
theorem exists_slot (n : ℕ) (a : ℕ → ℂ) (h1 : cumul a (2 ^ n) = 1) (r : ℝ) (r0 : 0 ≤ r) (r1 : r < 1) :
    ∃ x, x < 2 ^ n ∧ cumul a x ≤ r ∧ r < cumul a (x + 1) := by
  have hex : ∃ k, r < cumul a k := ⟨2 ^ n, by rw [h1]; exact r1⟩
  have hk := Nat.find_spec hex
  have hmin := fun m => Nat.find_min hex (m := m)
  have hle : Nat.find hex ≤ 2 ^ n := Nat.find_min' hex (by rw [h1]; exact r1)
  generalize Nat.find hex = k at hk hmin hle
  match k with
  | 0 => rw [cumul_zero] at hk; linarith
  | x + 1 => exact ⟨x, by omega, not_lt.mp (hmin x (by omega)), hk⟩

theorem slot_unique (a : ℕ → ℂ) (r : ℝ) (x y : ℕ) (hx : cumul a x ≤ r ∧ r < cumul a (x + 1)) (hy : cumul a y ≤ r ∧ r < cumul a (y + 1)) : x = y := by
  by_contra hne
  rcases Nat.lt_or_ge x y with h | h
  · have := cumul_mono a (show x + 1 ≤ y from h); linarith [hx.2, hy.1]
  · have := cumul_mono a (show y + 1 ≤ x by omega); linarith [hy.2, hx.1]

/-- the draws, out of `N` evenly spaced ones, that fall on a basis state with outcome `m` -/
theorem card_outcome (n : ℕ) (idx : List ℕ) (m : ℕ) (a : ℕ → ℂ) (h1 : cumul a (2 ^ n) = 1) (N : ℕ) (hN : 0 < N) :
    |(((range N).filter fun j : ℕ => ∃ x, x < 2 ^ n ∧ Spells n idx m x ∧ cumul a x ≤ (j : ℝ) / N ∧ (j : ℝ) / N < cumul a (x + 1)).card : ℝ) -
      N * bornProb n idx m a| ≤ 2 ^ n := by
  have e : ((range N).filter fun j : ℕ => ∃ x, x < 2 ^ n ∧ Spells n idx m x ∧ cumul a x ≤ (j : ℝ) / N ∧ (j : ℝ) / N < cumul a (x + 1)) =
      ((range (2 ^ n)).filter (Spells n idx m)).biUnion fun x => (range N).filter fun j : ℕ => cumul a x ≤ (j : ℝ) / N ∧ (j : ℝ) / N < cumul a (x + 1) := by
    ext j
    simp only [mem_filter, mem_biUnion, mem_range]
    constructor
    · rintro ⟨hj, x, hx, hs, h⟩; exact ⟨x, ⟨hx, hs⟩, hj, h⟩
    · rintro ⟨x, ⟨hx, hs⟩, hj, h⟩; exact ⟨hj, x, hx, hs, h⟩
  rw [e, card_biUnion (by
    intro x _ y _ hxy
    rw [Function.onFun, disjoint_left]
    intro j hx hy
    exact hxy (slot_unique a _ x y (mem_filter.mp hx).2 (mem_filter.mp hy).2))]
  have hb : bornProb n idx m a = ∑ x ∈ (range (2 ^ n)).filter (Spells n idx m), (cumul a (x + 1) - cumul a x) := by
    unfold bornProb cumul
    exact sum_congr (by congr) fun x _ => by rw [sum_range_succ, Complex.normSq_eq_norm_sq]; ring
  rw [hb, mul_sum]
  push_cast
  rw [← sum_sub_distrib]
  refine (abs_sum_le_sum_abs _ _).trans ((sum_le_sum (g := fun _ => (1 : ℝ)) fun x hx => ?_).trans ?_)
  · have hx := mem_range.mp (mem_filter.mp hx).1
    refine card_between N hN _ _ ?_ (cumul_mono a (by omega)) ?_
    · rw [← cumul_zero a]; exact cumul_mono a (by omega)
    · rw [← h1]; exact cumul_mono a (by omega)
  · rw [sum_const, nsmul_eq_mul, mul_one]
    have := card_filter_le (range (2 ^ n)) (Spells n idx m)
    rw [card_range] at this
    exact_mod_cast this

/-- sets of draws that agree outside the neighbourhoods of the sums -/
theorem card_close (n : ℕ) (a : ℕ → ℂ) (N : ℕ) (hN : 0 < N) (ρ : ℝ) (hρ : 0 ≤ ρ) (S T : ℕ → Prop) [DecidablePred S] [DecidablePred T]
    (h : ∀ j, j < N → (∀ k, k ≤ 2 ^ n → ρ < |(j : ℝ) / N - cumul a k|) → (S j ↔ T j)) :
    |(((range N).filter S).card : ℝ) - ((range N).filter T).card| ≤ (2 ^ n + 1) * (2 * ρ * N + 1) := by
  set B := (range (2 ^ n + 1)).biUnion fun k => (range N).filter fun j : ℕ => |(j : ℝ) / N - cumul a k| ≤ ρ with hB
  have hb : (B.card : ℝ) ≤ (2 ^ n + 1) * (2 * ρ * N + 1) := by
    have h1 : (B.card : ℝ) ≤ ∑ k ∈ range (2 ^ n + 1), (((range N).filter fun j : ℕ => |(j : ℝ) / N - cumul a k| ≤ ρ).card : ℝ) := by
      exact_mod_cast card_biUnion_le
    refine h1.trans ((sum_le_sum fun k _ => card_near N hN (cumul a k) ρ hρ).trans ?_)
    rw [sum_const, card_range, nsmul_eq_mul]
    push_cast
    exact le_rfl
  have key : ∀ (S T : ℕ → Prop) [DecidablePred S] [DecidablePred T], (∀ j, j < N → (∀ k, k ≤ 2 ^ n → ρ < |(j : ℝ) / N - cumul a k|) → (S j ↔ T j)) →
      (((range N).filter S).card : ℝ) ≤ ((range N).filter T).card + B.card := by
    intro S T _ _ h
    have : (range N).filter S ⊆ (range N).filter T ∪ B := by
      intro j hj
      obtain ⟨j1, j2⟩ := mem_filter.mp hj
      rw [mem_union]
      by_cases hg : ∀ k, k ≤ 2 ^ n → ρ < |(j : ℝ) / N - cumul a k|
      · exact .inl (mem_filter.mpr ⟨j1, (h j (mem_range.mp j1) hg).mp j2⟩)
      · push Not at hg
        obtain ⟨k, k1, k2⟩ := hg
        exact .inr (mem_biUnion.mpr ⟨k, mem_range.mpr (by omega), mem_filter.mpr ⟨j1, k2⟩⟩)
    exact_mod_cast (card_le_card this).trans (card_union_le _ _)
  have h1 := key S T h
  have h2 := key T S fun j hj hg => (h j hj hg).symm
  rw [abs_le]
  constructor <;> linarith

variable {f : Format} {fl : ℝ → ℝ}

namespace Format.Arith

/-- a circuit of gates in rounded arithmetic, followed by anything -/
theorem gates_run (A : f.Arith fl) (hf : 10 ≤ f.p) (he : f.emin + 2 * f.p + 4 ≤ 0) (n : ℕ) (hN : 2 ^ n * f.eps ≤ 1 / 64) (p : Pipeline)
    (hp : ∀ e ∈ p, SegU n e) (els : List (ElemP A.Num)) (hels : List.Forall₂ (ElemAs A) els p)
    (s : CalcState) (hs : s.state.length = 2 ^ n) (ha : s.arena.length = 2 ^ n) (h1 : nrm n (vals id s.state) = 1) (t0 : StateP A.Num f.Part)
    (ts : t0.state.length = 2 ^ n) (ta : t0.arena.length = 2 ^ n) (tf : ∀ c ∈ t0.state, A.fin c) (ε : ℝ)
    (td : nrm n (fun r => vals A.val t0.state r - vals id s.state r) ≤ ε) (hE : ε + (circuitCost p : ℝ) * f.eps ≤ 1) :
    ∃ s', (∀ rnds, calcFold n rnds p s = some s') ∧ s'.state.length = 2 ^ n ∧ s'.arena.length = 2 ^ n ∧ s'.measurements = s.measurements ∧
      nrm n (vals id s'.state) = 1 ∧
      ∃ t' : StateP A.Num f.Part, t'.state.length = 2 ^ n ∧ t'.arena.length = 2 ^ n ∧ t'.measurements = t0.measurements ∧ (∀ c ∈ t'.state, A.fin c) ∧
        nrm n (fun r => vals A.val t'.state r - vals id s'.state r) ≤ ε + (circuitCost p : ℝ) * f.eps ∧
        ∀ rnds rest t, RunsP A.prec (fun c : A.Num => c) (fun c => c) n rnds (els ++ rest) t0 t ↔
          RunsP A.prec (fun c : A.Num => c) (fun c => c) n rnds rest t' t := by
  have hd := eps_pos f
  induction hels generalizing s ε t0 with
  | nil => exact ⟨s, fun _ => rfl, hs, ha, rfl, h1, t0, ts, ta, rfl, tf, by simpa [circuitCost] using td, fun _ _ _ => Iff.rfl⟩
  | @cons el e els' p' he1 hels ih =>
    have hsegU := hp e (by simp)
    have hseg := hsegU.1
    have hlen : (circuitCost (e :: p') : ℝ) = circuitCost p' + elemCost e := by
      rw [show circuitCost (e :: p') = elemCost e + circuitCost p' by simp [circuitCost]]
      push_cast; ring
    rw [hlen] at hE ⊢
    cases he1 with
    | measurement idx w =>
      obtain ⟨-, -, g, hg, -⟩ := hseg
      cases hg
    | gate op U idx w g hU hst =>
      obtain ⟨hUn, hK⟩ := unitaryOn_gate n _ hsegU g rfl U hU
      have hKn := rowEntries_le n _ hsegU g rfl
      have hcost : elemCost (idx, ⟨w, .unitary g⟩) = gateCost idx.length g := by
        cases g with
        | GlobalPhase ρ => cases hU
        | _ => rfl
      rw [hcost] at hE ⊢
      have hc0 : 0 ≤ (circuitCost p' : ℝ) * f.eps := by positivity
      have hc1 : 0 ≤ (gateCost idx.length g : ℝ) * f.eps := by positivity
      have hEm := embed_unitary n U.indices hUn.nodup hUn.lt (opMat U) hUn.unitary
      obtain ⟨s1, hstep⟩ : ∃ s1, ∀ rnds, calcStep n rnds s (idx, ⟨w, .unitary g⟩) = some s1 := by
        obtain ⟨s1, k, -⟩ := Props.calcFold_exact n (fun _ => 0) [(idx, ⟨w, .unitary g⟩)] (by simpa using hseg) [U] (.cons ⟨g, rfl, hU⟩ .nil) s hs ha
        refine ⟨s1, fun rnds => ?_⟩
        rw [calcFold_cons] at k
        have k' : calcStep n (fun _ => 0) s (idx, ⟨w, .unitary g⟩) = some s1 := by
          cases h : calcStep n (fun _ => 0) s (idx, ⟨w, .unitary g⟩) with
          | none => rw [h] at k; cases k
          | some z => rw [h] at k; exact k
        rw [← k']
        unfold calcStep
        cases g <;> rfl
      obtain ⟨g1, g2, g3, g4⟩ := calcStep_gate n _ s s1 hs ha _ hseg g rfl U hU (hstep fun _ => 0)
      have hε : ε ≤ 1 := by linarith
      obtain ⟨out, o1, o2, o3, o4⟩ := gate_err A hf he n hN op U hst _ hK hKn hUn t0.state t0.arena ts ta tf (vals id s.state) h1.le ε hε td
      obtain ⟨s', k1, k2, k3, k4, k5, t', k6, k7, k8, k9, k10, k11⟩ := ih (fun e he => hp e (by simp [he])) s1 g2 g3
        (by rw [nrm_congr n _ _ g4, nrm_mulVec n _ hEm, h1]) ⟨out, t0.state, t0.measurements⟩ o2 ts o3 (ε + gateCost idx.length g * f.eps) (by
          refine le_trans (le_of_eq (nrm_congr n _ _ fun r hr => ?_)) o4
          show vals A.val out r - vals id s1.state r = _
          rw [g4 r hr]) (by linarith)
      refine ⟨s', fun rnds => by rw [calcFold_cons, hstep]; exact k1 rnds, k2, k3, by rw [k4, g1], k5, t', k6, k7, k8, k9, by linarith, ?_⟩
      intro rnds rest t
      rw [← k11]
      constructor
      · intro ht
        cases ht with
        | op _ _ _ _ arena ha' ht =>
          obtain rfl : out = arena := by rw [o1] at ha'; exact Option.some.inj ha'
          exact ht
      · intro ht
        exact .op op _ _ _ out o1 ht

end Format.Arith

end Verif
