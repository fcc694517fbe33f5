import Verif.Proofs.TimesOne2
import Verif.Props.AddMod

/-!
# Properties C72 and C73: `times_mod` and `square_mod`

Both are refuted: `times_mod` computes `a - m`, notes the sign in a temporary qubit, and adds `m` again inside the condition on that
qubit. It ends with the inverse lines, among them `add_inv` inside the condition. Inside conditions `add` and `add_inv` are not
inverse to each other when a carry occurs (C59, C67), and a carry occurs whenever `a < m`.
-/

namespace Verif.Props
open Classical Complex RegOps CircuitBuilder Rooted

/-! ## C72 -/

/-- C72 as stated. -/
def C72_claim : Prop :=
  ∀ (s : LocalBuilder) (ra rb rm rp : Reg) (L : List ℕ) (x : Asg), rb ≠ [] → rm ≠ [] → ra.length = rm.length + 1 → rp.length = rm.length + 1 →
    Own s ([ra, rb, rm, rp].flatten ++ L) → Clean s x → valQ ra x < valQ rm x → valQ rp x < valQ rm x →
    Sends rotAngle (Arith.timesMod [ra, rb, rm, rp]) s [ra, rb, rm, rp] x (putVal rp ((valQ rp x + valQ rb x * valQ ra x) % valQ rm x) x)

/-- writing the value a register has changes nothing -/
theorem putVal_self (r : Reg) (hn : r.Nodup) (x : Asg) : putVal r (valQ r x) x = x := by
  funext q
  by_cases hq : q ∈ r
  · exact valQ_inj r _ _ (valQ_putVal r hn _ (valQ_lt r x) x) q hq
  · exact if_neg hq

/-- `times_mod` runs, but for a register `b` of one qubit that is 0 its result is never the stated one (which is: no change), whatever
the sizes of the other registers, `a < m` and `p < m` are. -/
theorem C72_zero_partial (s : LocalBuilder) (ra rm rp : Reg) (b : ℕ) (L : List ℕ) (x : Asg) (hm : rm ≠ []) (ha : ra.length = rm.length + 1)
    (hp : rp.length = rm.length + 1) (ho : Own s ([ra, [b], rm, rp].flatten ++ L)) (hx : Clean s x) (h1 : valQ ra x < valQ rm x)
    (h2 : valQ rp x < valQ rm x) (hb : x b = false) :
    putVal rp ((valQ rp x + valQ [b] x * valQ ra x) % valQ rm x) x = x ∧
    (∃ s', Arith.timesMod [ra, [b], rm, rp] s = .ok [ra, [b], rm, rp] s') ∧
    ¬ Sends rotAngle (Arith.timesMod [ra, [b], rm, rp]) s [ra, [b], rm, rp] x
      (putVal rp ((valQ rp x + valQ [b] x * valQ ra x) % valQ rm x) x) := by
  obtain ⟨s', seg, t, c0, ct, r1, r2, r3, r4, -, r5⟩ := timesMod_run hm ha hp ho
  have hrp : rp.Nodup := by
    simp only [List.flatten_cons, List.flatten_nil, List.append_nil, List.nodup_append] at r4
    tauto
  have e : putVal rp ((valQ rp x + valQ [b] x * valQ ra x) % valQ rm x) x = x := by
    have : valQ [b] x = 0 := by simp [valQ, hb]
    rw [this, Nat.zero_mul, Nat.add_zero, Nat.mod_eq_of_lt h2, putVal_self rp hrp]
  refine ⟨e, ⟨s', r1⟩, ?_⟩
  rw [e]
  rintro ⟨s2, seg', b1, b2, b3⟩
  obtain rfl : s' = s2 := by
    have := r1.symm.trans b1
    injection this
  obtain rfl : seg = seg' := List.append_cancel_left (r2.symm.trans b2)
  obtain ⟨g1, g2⟩ := r5 x hx hb
  refine times_wrong rfl ha r3 (r4.sublist ?_) x g1 h1 (g2.symm.trans b3)
  simp only [List.flatten_cons, List.flatten_nil, List.append_nil]
  refine (List.Sublist.refl _).append ?_
  refine List.Sublist.trans ?_ (List.sublist_append_right [b] _)
  exact (List.Sublist.refl _).append (List.sublist_append_right rp _)

theorem tenQubits_own' : Own (⟨[], 10, [], 0⟩ : LocalBuilder) ([[0, 1, 2], [3], [4, 5], [6, 7, 8]].flatten ++ [9]) := ⟨by simp, by decide, by decide⟩

/-- `(2 + 0 * 1) mod 3` -/
theorem C72_refuted : ¬ C72_claim := by
  intro h
  refine (C72_zero_partial ⟨[], 10, [], 0⟩ [0, 1, 2] [4, 5] [6, 7, 8] 3 [9] (ones [0, 4, 5, 7]) (by simp) rfl rfl tenQubits_own' (ones_clean 10 _ (by simp))
    (by simp [ones, valQ]) (by simp [ones, valQ]) (by simp [ones])).2.2 ?_
  exact h _ _ _ _ _ [9] _ (by simp) (by simp) rfl rfl tenQubits_own' (ones_clean 10 _ (by simp)) (by simp [ones, valQ]) (by simp [ones, valQ])

/-- ... and for a register `b` of one qubit of either value: `times_mod` runs, but if `a < m`, what it makes of a basis state is not a basis state in
which only `p` has changed - whatever is written into `p`, so not the stated result either. -/
theorem C72_one_qubit_partial (s : LocalBuilder) (ra rm rp : Reg) (b : ℕ) (L : List ℕ) (x : Asg) (hm : rm ≠ []) (ha : ra.length = rm.length + 1)
    (hp : rp.length = rm.length + 1) (ho : Own s ([ra, [b], rm, rp].flatten ++ L)) (hx : Clean s x) (h1 : valQ ra x < valQ rm x) :
    (∃ s', Arith.timesMod [ra, [b], rm, rp] s = .ok [ra, [b], rm, rp] s') ∧
    ∀ v, ¬ Sends rotAngle (Arith.timesMod [ra, [b], rm, rp]) s [ra, [b], rm, rp] x (putVal rp v x) := by
  obtain ⟨s', -, -, -, -, r1, -⟩ := timesMod_run hm ha hp ho
  exact ⟨⟨s', r1⟩, fun v => timesOne_wrong hm ha hp ho x _ hx h1 fun q hq => if_neg hq⟩

/-- `(2 + 1 * 1) mod 3`: not 0 -/
example : ¬ Sends rotAngle (Arith.timesMod [[0, 1, 2], [3], [4, 5], [6, 7, 8]]) ⟨[], 10, [], 0⟩ [[0, 1, 2], [3], [4, 5], [6, 7, 8]]
    (ones [0, 3, 4, 5, 7]) (putVal [6, 7, 8] ((2 + 1 * 1) % 3) (ones [0, 3, 4, 5, 7])) :=
  (C72_one_qubit_partial ⟨[], 10, [], 0⟩ [0, 1, 2] [4, 5] [6, 7, 8] 3 [9] _ (by simp) rfl rfl tenQubits_own' (ones_clean 10 _ (by simp))
    (by simp [ones, valQ])).2 _

/-- Other sizes of `a` or `p` are an error, and nothing is added to the circuit. -/
theorem C72_sizes {k : ℕ} (s : NB k) (ra rb rm rp : Reg) (h : ¬ (ra.length = rm.length + 1 ∧ rp.length = rm.length + 1)) :
    Arith.timesMod [ra, rb, rm, rp] s = .error .error s := by
  rw [Arith.timesMod]
  by_cases h1 : ra.length ≠ rm.length + 1
  · rw [if_pos h1]; rfl
  · rw [if_neg h1, if_pos (by tauto)]; rfl

/-- `(0 + 0 * 0) mod 1`, with qubits in the pool -/
example := (C72_zero_partial ⟨[], 9, [[8], [6]], 0⟩ [0, 1] [3] [4, 5] 2 [7] (ones [3, 7]) (by simp) rfl rfl ⟨by simp, by decide, by decide⟩
  (by intro q hq; refine decide_eq_false fun hm => ?_; simp at hm hq; omega) (by simp [ones, valQ]) (by simp [ones, valQ]) (by simp [ones])).2.2

example : Arith.timesMod [[0, 1], [2], [3, 4], [5, 6]] (sevenQubits : NB 0) = .error .error sevenQubits :=
  C72_sizes (k := 0) sevenQubits [0, 1] [2] [3, 4] [5, 6] (by simp)

/-! ## C73 -/

/-- C73 as stated. -/
def C73_claim : Prop :=
  ∀ (s : LocalBuilder) (ra rm rq : Reg) (L : List ℕ) (x : Asg), rm ≠ [] → ra.length = rm.length + 1 → rq.length = rm.length + 1 →
    Own s ([ra, rm, rq].flatten ++ L) → Clean s x → valQ ra x < valQ rm x → valQ rq x < valQ rm x →
    Sends rotAngle (Arith.squareMod [ra, rm, rq]) s [ra, rm, rq] x (putVal rq ((valQ rq x + valQ ra x * valQ ra x) % valQ rm x) x)

/-- whatever qubits a builder holds, it may be taken to hold all those not in the pool -/
theorem own_all {s : LocalBuilder} {A : List ℕ} (h : Own s A) :
    ∃ L, Own s (A ++ L) ∧ ∀ q < s.n, q ∈ A ++ L ∨ q ∈ s.zeroedQubits.flatten := by
  have hm : ∀ q, q ∈ (List.range s.n).filter (fun q => decide (q ∉ A ++ s.zeroedQubits.flatten)) ↔ q < s.n ∧ q ∉ A ++ s.zeroedQubits.flatten := by
    intro q
    rw [List.mem_filter, List.mem_range, decide_eq_true_eq]
  refine ⟨(List.range s.n).filter fun q => decide (q ∉ A ++ s.zeroedQubits.flatten), ⟨h.pool, ?_, ?_⟩, fun q hq => ?_⟩
  · have e : (A ++ (List.range s.n).filter (fun q => decide (q ∉ A ++ s.zeroedQubits.flatten)) ++ s.zeroedQubits.flatten).Perm
        ((A ++ s.zeroedQubits.flatten) ++ (List.range s.n).filter (fun q => decide (q ∉ A ++ s.zeroedQubits.flatten))) := by
      rw [List.append_assoc, List.append_assoc]
      exact List.Perm.append_left _ List.perm_append_comm
    rw [e.nodup_iff, List.nodup_append]
    refine ⟨h.nodup, List.nodup_range.filter _, fun p hp q hq e => ?_⟩
    exact ((hm q).mp hq).2 (e ▸ hp)
  · intro q hq
    rw [List.append_assoc, List.mem_append, List.mem_append] at hq
    rcases hq with hq | hq | hq
    · exact h.lt q (List.mem_append_left _ hq)
    · exact ((hm q).mp hq).1
    · exact h.lt q (List.mem_append_right _ hq)
  · by_cases hq1 : q ∈ A ++ s.zeroedQubits.flatten
    · rw [List.mem_append] at hq1 ⊢
      tauto
    · exact .inl (List.mem_append_right _ ((hm q).mpr ⟨hq, hq1⟩))

/-- For a modulus register of one qubit the result is never the stated one. -/
theorem C73_one_qubit_partial (s : LocalBuilder) (ra rq : Reg) (m : ℕ) (L : List ℕ) (x : Asg) (ha : ra.length = 2) (hq : rq.length = 2)
    (ho : Own s ([ra, [m], rq].flatten ++ L)) (hx : Clean s x)
    (h1 : valQ ra x < valQ [m] x) (h2 : valQ rq x < valQ [m] x) :
    putVal rq ((valQ rq x + valQ ra x * valQ ra x) % valQ [m] x) x = x ∧
    ¬ Sends rotAngle (Arith.squareMod [ra, [m], rq]) s [ra, [m], rq] x (putVal rq ((valQ rq x + valQ ra x * valQ ra x) % valQ [m] x) x) := by
  have hm1 : valQ [m] x < 2 := by simpa using valQ_lt [m] x
  have hm : x m = true := by
    by_contra hc
    have : x m = false := by simpa using hc
    simp [valQ, this] at h1
  have e0 : valQ ra x = 0 := by omega
  have e1 : valQ rq x = 0 := by omega
  have hrq : rq.Nodup := by
    have := (List.nodup_append.mp ho.left).1
    simp only [List.flatten_cons, List.flatten_nil, List.append_nil, List.nodup_append] at this
    tauto
  have e : putVal rq ((valQ rq x + valQ ra x * valQ ra x) % valQ [m] x) x = x := by
    rw [e0, e1, Nat.zero_mul, Nat.add_zero, Nat.zero_mod, ← e1, putVal_self rq hrq]
  refine ⟨e, ?_⟩
  rw [e]
  obtain ⟨L', ho', hall⟩ := own_all ho
  rw [List.append_assoc] at ho' hall
  refine squareMod_wrong ha hq ho' hall x hx (fun q hq => ?_) hm
  obtain ⟨a0, a1, rfl⟩ := List.length_eq_two.mp ha
  have z0 : x a0 = false ∧ x a1 = false := by
    revert e0
    cases h0 : x a0 <;> cases h1 : x a1 <;> simp [valQ, h0, h1]
  simp only [List.mem_cons, List.not_mem_nil, or_false] at hq
  rcases hq with rfl | rfl
  · exact z0.1
  · exact z0.2

/-- five qubits in use -/
def fiveInUse : LocalBuilder := ⟨[], 5, [], 0⟩

theorem fiveInUse_own : Own fiveInUse ([[0, 1], [2], [3, 4]].flatten ++ []) := ⟨by simp [fiveInUse], by decide, by decide⟩

/-- `(0 + 0 * 0) mod 1` -/
theorem C73_refuted : ¬ C73_claim := by
  intro h
  refine (C73_one_qubit_partial fiveInUse [0, 1] [3, 4] 2 [] (ones [2]) rfl rfl fiveInUse_own (ones_clean 5 _ (by simp))
    (by simp [ones, valQ]) (by simp [ones, valQ])).2 ?_
  exact h fiveInUse _ _ _ [] _ (by simp) rfl rfl fiveInUse_own (ones_clean 5 _ (by simp)) (by simp [ones, valQ]) (by simp [ones, valQ])

/-- Other sizes of `a` or `s` are an error, and nothing is added to the circuit. -/
theorem C73_sizes {k : ℕ} (s : NB k) (ra rm rq : Reg) (h : ¬ (ra.length = rm.length + 1 ∧ rq.length = rm.length + 1)) :
    Arith.squareMod [ra, rm, rq] s = .error .error s := by
  rw [Arith.squareMod]
  by_cases h1 : ra.length ≠ rm.length + 1
  · rw [if_pos h1]; rfl
  · rw [if_neg h1, if_pos (by tauto)]; rfl

/-- with a qubit in the pool, a further one held and one lost -/
example := (C73_one_qubit_partial ⟨[], 8, [[5]], 0⟩ [0, 1] [3, 4] 2 [6] (ones [2, 6]) rfl rfl ⟨by simp, by decide, by decide⟩
  (by intro q hq; refine decide_eq_false fun hm => ?_; simp at hm hq; omega) (by simp [ones, valQ]) (by simp [ones, valQ])).2

example : Arith.squareMod [[0, 1], [3, 4], [5, 6]] (sevenQubits : NB 0) = .error .error sevenQubits :=
  C73_sizes (k := 0) sevenQubits [0, 1] [3, 4] [5, 6] (by simp)

end Verif.Props
