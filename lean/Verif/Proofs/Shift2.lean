import Verif.Proofs.Shift

/-! # Inverses of shifts and copies -/

namespace Verif
open Classical RegOps CircuitBuilder Rooted

variable {ang : Rot → ℝ}

theorem rotate_rotate (r : Reg) (hn : r.Nodup) (h2 : 2 ≤ r.length) (x : Asg) :
    rotate 1 r (rotate (r.length - 1) r x) = x ∧ rotate (r.length - 1) r (rotate 1 r x) = x := by
  have key : ∀ j k, (j + k) = r.length → j < r.length → k < r.length → rotate j r (rotate k r x) = x := by
    intro j k hjk hj hk
    refine reg_ext r _ _ (fun q hq => ?_) fun i hi => ?_
    · rw [rotate_keeps _ _ _ _ hq, rotate_keeps _ _ _ _ hq]
    · rw [rotate_at _ r hn _ i hi, rotate_at _ r hn _ _ (Nat.mod_lt _ (by omega))]
      congr 2
      rw [Nat.mod_eq_of_lt hj, Nat.mod_eq_of_lt hk, Nat.mod_add_mod, show i + (r.length - j) + (r.length - k) = i + r.length by omega,
        Nat.add_mod_right, Nat.mod_eq_of_lt hi]
  exact ⟨key _ _ (by omega) (by omega) (by omega), key _ _ (by omega) (by omega) (by omega)⟩

theorem Seen.rotate {g : ℕ → ℕ} (n k : ℕ) (hg : Set.InjOn g {i | i ∈ List.range n}) {y x : Asg} (h : Seen g (List.range n) y x) :
    Seen g (List.range n) (rotate k (List.range n) y) (rotate k ((List.range n).map g) x) := by
  intro i hi
  have hi' := List.mem_range.mp hi
  have hn : ((List.range n).map g).Nodup := List.Nodup.map_on (fun a ha b hb => hg ha hb) List.nodup_range
  have hget : ∀ j < n, ((List.range n).map g).getD j 0 = g j := by
    intro j hj
    rw [List.getD_eq_getElem _ _ (by simpa using hj)]
    simp
  have hget' : ∀ j < n, (List.range n).getD j 0 = j := by
    intro j hj
    rw [List.getD_eq_getElem _ _ (by simpa using hj)]
    simp
  have h1 := rotate_at k (List.range n) List.nodup_range y i (by simpa using hi')
  have h2 := rotate_at k ((List.range n).map g) hn x i (by simpa using hi')
  have hlt : (i + (n - k % n)) % n < n := Nat.mod_lt _ (by omega)
  rw [hget' i hi', List.length_range, hget' _ hlt] at h1
  rw [hget i hi', List.length_map, List.length_range, hget _ hlt] at h2
  rw [h1, h2]
  exact h _ (List.mem_range.mpr hlt)

theorem range'_zero (n : ℕ) : List.range' 0 n = List.range n := List.range_eq_range'.symm

theorem Maps.lshift (hang : ∀ ρ, ang (Rot.neg ρ) = -ang ρ) (r : Reg) (h2 : 2 ≤ r.length) :
    Maps ang [] (Arith.lshift [r] : M LocalBuilder _) [r] r (rotate (r.length - 1) r) := by
  refine Maps.of_nodup (rotate_keeps _ r) fun hn => ?_
  have hr : r ≠ [] := by rintro rfl; simp at h2
  have hfl : [r].flatten = r := by simp
  have hrg : ranges 0 ([r].map List.length) = [List.range r.length] := by
    simp only [List.map_cons, List.map_nil, ranges, range'_zero]
  have hget' : ∀ j < r.length, (List.range r.length).getD j 0 = j := by
    intro j hj
    rw [List.getD_eq_getElem _ _ (by simpa using hj)]
    simp
  have h := (Maps.inverse (rs := [r]) hang (by simp) (by simpa using hr) (f := Arith.rshift) (a := [List.range r.length])
    (Φ := Verif.rotate 1 (List.range r.length)) (Ψ := Verif.rotate (r.length - 1) (List.range r.length)) (by
      rw [hfl, hrg]
      exact Maps.rshift [] _ (by simpa using hr)) (by
      rw [hfl]
      intro z hz
      refine ⟨fun i hi => ?_, ?_⟩
      · rw [rotate_keeps _ _ _ _ (by simpa using hi)]; exact hz i hi
      · have := (rotate_rotate (List.range r.length) List.nodup_range (by simpa using h2) z).1
        rwa [List.length_range] at this) (by
      rw [hfl]
      refine ⟨fun q => decide (q = r.length - 2), fun i hi => ?_, ?_⟩
      · have hi' : r.length ≤ i := hi
        simp only [decide_eq_false_iff_not]
        omega
      · have h1 := rotate_at 1 (List.range r.length) List.nodup_range (fun q => decide (q = r.length - 2)) (r.length - 1) (by
          rw [List.length_range]; omega)
        rw [hget' _ (by omega), List.length_range, Nat.mod_eq_of_lt (by omega : 1 < r.length),
          show r.length - 1 + (r.length - 1) = r.length - 2 + r.length by omega, Nat.add_mod_right, Nat.mod_eq_of_lt (by omega), hget' _ (by omega)] at h1
        rw [h1]
        simp only [decide_true, ne_eq, Bool.true_eq, decide_eq_true_eq]
        omega)).1
  rw [hfl] at h
  refine h.congr fun x => ?_
  have he := emb_of_seen [r] (by rwa [hfl]) x (Verif.rotate (r.length - 1) (List.range r.length)) (Verif.rotate (r.length - 1) r)
    (fun q hq => rotate_keeps _ _ _ _ (by rwa [hfl] at hq)) fun g hg hgr y hy => by
      rw [hrg] at hgr hg hy ⊢
      simp only [List.flatten_cons, List.flatten_nil, List.append_nil, List.map_cons, List.map_nil, List.cons.injEq, and_true] at hgr hg hy ⊢
      have := Seen.rotate r.length (r.length - 1) hg hy
      rw [← hgr] at this
      exact this
  rw [hfl] at he
  exact he

/-! ## copy -/

theorem copyMap_copyMap (a b : Reg) (hn : (a ++ b).Nodup) (hl : a.length = b.length) (x : Asg) : copyMap a b (copyMap a b x) = x := by
  obtain ⟨n1, n2, n3⟩ := List.nodup_append.mp hn
  refine reg_ext b _ _ (fun q hq => ?_) fun i hi => ?_
  · rw [copyMap_keeps _ _ _ _ hq, copyMap_keeps _ _ _ _ hq]
  · rw [copyMap_at a b hn hl _ i hi, copyMap_at a b hn hl _ i hi, copyMap_keeps a b x (a.getD i 0), Bool.xor_assoc, Bool.xor_self, Bool.xor_false]
    intro h
    rw [List.getD_eq_getElem _ _ (by omega)] at h
    exact n3 _ (List.getElem_mem _) _ h rfl

theorem Seen.copy {g : ℕ → ℕ} {S : List ℕ} (hg : Set.InjOn g {i | i ∈ S}) (a b : List ℕ) {y x : Asg} (h : Seen g S y x) (ha : ∀ i ∈ a, i ∈ S)
    (hb : ∀ i ∈ b, i ∈ S) : Seen g S (copyMap a b y) (copyMap (a.map g) (b.map g) x) := by
  induction a generalizing b y x with
  | nil => exact h
  | cons q a ih =>
    cases b with
    | nil => exact h
    | cons p b =>
      simp only [List.map_cons, copyMap]
      refine ih b ?_ (fun i hi => ha i (by simp [hi])) (fun i hi => hb i (by simp [hi]))
      rw [h p (hb p (by simp)), h q (ha q (by simp))]
      exact h.update hg p (hb p (by simp)) _

theorem Maps.copyInv (hang : ∀ ρ, ang (Rot.neg ρ) = -ang ρ) (a b : Reg) (hr : a ≠ []) (hl : a.length = b.length) :
    Maps ang [] (Arith.copyInv [a, b] : M LocalBuilder _) [a, b] (a ++ b) (copyMap a b) := by
  have hk : ∀ x q, q ∉ a ++ b → copyMap a b x q = x q := fun x q hq => copyMap_keeps _ _ _ _ fun h => hq (by simp [h])
  refine Maps.of_nodup hk fun hn => ?_
  have hrb : b ≠ [] := by rintro rfl; simp at hl; exact hr hl
  have hfl : [a, b].flatten = a ++ b := by simp
  obtain ⟨n, hln⟩ : ∃ n, n = a.length := ⟨_, rfl⟩
  have hpos : 0 < n := by rw [hln]; exact List.length_pos_iff.mpr hr
  have hrg : ranges 0 ([a, b].map List.length) = [List.range' 0 n, List.range' n n] := by
    simp only [List.map_cons, List.map_nil, ranges, ← hl, ← hln, Nat.zero_add]
  have hlen : [a, b].flatten.length = n + n := by rw [hfl, List.length_append, ← hl, hln]
  have hrf : List.range' 0 n ++ List.range' n n = List.range (n + n) := by
    rw [List.range_eq_range', ← List.range'_append]
    simp
  have h := (Maps.inverse (rs := [a, b]) hang (by simp) (by simp [hr, hrb]) (f := Arith.copy) (a := [List.range' 0 n, List.range' n n])
    (Φ := copyMap (List.range' 0 n) (List.range' n n)) (Ψ := copyMap (List.range' 0 n) (List.range' n n)) (by
      rw [hlen, hrg, ← hrf]
      exact Maps.copy [] _ _ (by simp; omega) (by simp)) (by
      rw [hlen]
      intro z hz
      refine ⟨fun i hi => ?_, copyMap_copyMap _ _ (by rw [hrf]; exact List.nodup_range) (by simp) z⟩
      rw [copyMap_keeps _ _ _ _ (by simp only [List.mem_range'_1]; omega)]
      exact hz i hi) (by
      rw [hlen]
      refine ⟨fun q => decide (q = n - 1), fun i hi => ?_, ?_⟩
      · have hi' : n + n ≤ i := hi
        simp only [decide_eq_false_iff_not]
        omega
      · have h1 := copyMap_at (List.range' 0 n) (List.range' n n) (by rw [hrf]; exact List.nodup_range) (by simp) (fun q => decide (q = n - 1)) (n - 1) (by
          rw [List.length_range']; omega)
        rw [List.getD_eq_getElem _ _ (by rw [List.length_range']; omega), List.getD_eq_getElem _ _ (by rw [List.length_range']; omega),
          List.getElem_range', List.getElem_range'] at h1
        rw [show n + n - 1 = n + 1 * (n - 1) by omega, h1]
        have e : decide (n + 1 * (n - 1) = n - 1) = false := by simp only [decide_eq_false_iff_not]; omega
        have e' : decide (0 + 1 * (n - 1) = n - 1) = true := by simp only [decide_eq_true_eq]; omega
        show _ ≠ decide (n + 1 * (n - 1) = n - 1)
        rw [e, e']
        simp)).1
  rw [hfl] at h
  refine h.congr fun x => ?_
  have he := emb_of_seen [a, b] (by rwa [hfl]) x (copyMap (List.range' 0 n) (List.range' n n)) (copyMap a b)
    (fun q hq => hk x q (by rwa [hfl] at hq)) fun g hg hgr y hy => by
      rw [hrg] at hgr hg hy ⊢
      simp only [List.map_cons, List.map_nil, List.cons.injEq, and_true] at hgr
      have := Seen.copy hg (List.range' 0 n) (List.range' n n) hy (by simp; omega) (by simp; omega)
      rw [← hgr.1, ← hgr.2] at this
      exact this
  rw [hfl] at he
  exact he

end Verif
