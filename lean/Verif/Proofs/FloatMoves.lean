import Verif.Model.Float
import Verif.Spec.Float
import Verif.Proofs.Rows

namespace Verif
open MatrixOp

section
variable {F : Type} [Zero F] [One F] [DecidableEq F]

omit [One F] in
theorem nzItems_nil_of (d : List F) (p : ℕ) (h : ∀ v ∈ d, v = 0) : nzItems d p = [] := by
  induction d generalizing p with
  | nil => rfl
  | cons v d ih =>
    rw [nzItems_cons, h v (by simp), if_neg (by simp)]
    exact ih _ (fun v hv => h v (by simp [hv]))

theorem nzItems_one (h10 : (1 : F) ≠ 0) (d : List F) (p q : ℕ) (hq : q < d.length)
    (h : ∀ c, c < d.length → d[c]? = some (if c = q then 1 else 0)) : nzItems d p = [(p + q, 1)] := by
  induction d generalizing p q with
  | nil => simp at hq
  | cons v d ih =>
    rw [nzItems_cons]
    have h0 := h 0 (by simp)
    cases q with
    | zero =>
      simp at h0
      subst h0
      rw [if_pos h10, nzItems_nil_of, Nat.add_zero]
      intro v hv
      obtain ⟨i, hi, rfl⟩ := List.mem_iff_getElem.mp hv
      have := h (i + 1) (by simpa using hi)
      simpa [List.getElem?_eq_getElem hi] using this
    | succ q =>
      simp at h0
      subst h0
      rw [if_neg (by simp), ih (p + 1) q (by simpa using hq)]
      · rw [show p + 1 + q = p + (q + 1) by omega]
      · intro c hc
        have := h (c + 1) (by simpa using hc)
        simpa using this

theorem rowItems_carries (h10 : (1 : F) ≠ 0) (op : MatrixOp F) (hwf : op.WF) (π : ℕ → ℕ) (h : op.Carries π) (r : ℕ)
    (hr : r < 2 ^ op.indices.length) : rowItems op r = [(π r, 1)] ∧ π r < 2 ^ op.indices.length := by
  induction op generalizing π r with
  | matrix idx data =>
    simp only [indices] at hr ⊢
    obtain ⟨h1, h2⟩ := h r hr
    have hlen : (r + 1) * 2 ^ idx.length ≤ data.length := by
      rw [hwf]; exact Nat.mul_le_mul_right _ hr
    refine ⟨?_, h1⟩
    rw [rowItems, nzItems_one h10 _ 0 (π r) (by rw [denseRow_length data _ r hlen]; exact h1), Nat.zero_add]
    intro c hc
    rw [denseRow_length data _ r hlen] at hc
    rw [denseRow, List.getElem?_take_of_lt hc, List.getElem?_drop, h2 c hc]
  | sparse idx rows =>
    simp only [indices] at hr ⊢
    have h1 := h r hr
    refine ⟨by rw [rowItems, h1]; rfl, ?_⟩
    exact hwf.2 _ (List.mem_of_getElem? h1) (π r, 1) (by simp)
  | swap a idx =>
    have hidx : idx.length = a * 2 := hwf
    simp only [indices, hidx] at hr ⊢
    obtain ⟨h1, h2⟩ := h r hr
    refine ⟨?_, h1⟩
    rw [rowItems, (swapHalves_iff a r (π r) hr h1).mpr]
    intro i hi
    exact ⟨(h2 i hi).2.symm, (h2 i hi).1.symm⟩
  | control nc idx op ih =>
    obtain ⟨w1, w2, w3⟩ := hwf
    simp only [indices] at hr ⊢
    obtain ⟨π', hπ', h'⟩ := h
    obtain ⟨h1, h2⟩ := h' r hr
    refine ⟨?_, h1⟩
    have hlen : idx.length = nc + (idx.length - nc) := by omega
    rw [rowItems]
    rw [hlen] at hr h1
    have hon := allOnes_iff nc (idx.length - nc) r hr
    rw [← hlen] at hon
    by_cases hc : 2 ^ idx.length - 2 ^ (idx.length - nc) ≤ r
    · rw [if_pos hc]
      rw [if_pos (hon.mpr hc)] at h2
      obtain ⟨h3, h4⟩ := h2
      have e1 := sub_thr_mod nc (idx.length - nc) r hr (by rw [← hlen]; exact hc)
      rw [← hlen] at e1
      have hc2 := (allOnes_iff nc (idx.length - nc) (π r) h1).mp h3
      have e2 := sub_thr_mod nc (idx.length - nc) (π r) h1 hc2
      rw [← hlen] at e2 hc2
      rw [e1, (ih w2 π' hπ' (r % 2 ^ (idx.length - nc)) (by rw [w3]; exact Nat.mod_lt _ (Nat.two_pow_pos _))).1]
      simp only [List.map_cons, List.map_nil]
      rw [← h4, ← e2]
      rw [Nat.sub_add_cancel hc2]
    · rw [if_neg hc]
      rw [if_neg (fun hh => hc (hon.mp hh))] at h2
      rw [h2]

end

section
variable {F : Type} [Zero F] [One F] [Add F] [Mul F] [DecidableEq F]

theorem rowTotal_carries (h10 : (1 : F) ≠ 0) (hadd : ∀ x : F, 0 + x = x) (hmul : ∀ x : F, 1 * x = x) (n : ℕ) (op : MatrixOp F)
    (hwf : op.WF) (π : ℕ → ℕ) (h : op.Carries π) (input : List F) (r : ℕ) :
    rowTotal n op input r = (input[s2f n op.indices (π (f2s n op.indices r)) r]?).getD 0 := by
  rw [rowTotal, (rowItems_carries h10 op hwf π h _ (f2s_lt _ _ _)).1]
  simp [total, hadd, hmul]

theorem s2f_agree (n : ℕ) (idx : List ℕ) (hidx : ∀ i ∈ idx, i < n) (s r : ℕ) : AgreeOff n idx r (s2f n idx s r) := by
  intro q hq hm
  symm
  apply testBit_s2f_not_mem
  intro q' hq' e
  have := hidx q' hq'
  exact hm (by rwa [show q = q' by omega])

end
end Verif
