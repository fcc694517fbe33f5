import Verif.Proofs.AddMod2
import Verif.Props.Arith
import Verif.Props.Cond

/-!
# Properties C49, C58 and C59: `add_mod`, and subcircuits and additions inside conditions

C58: refuted; the subcircuit is replayed with other matrices for `Y` and `H` (those of C36).
C59: refuted; `add` uses the inverse of `carry`, a subcircuit with `H`. Exact criterion: the addition works if and only if no carry
occurs before the last position.
C49: refuted; `add_mod` adds inside a condition. Exact criterion in `C49_exact_partial`.
-/

namespace Verif.Props
open Classical Complex RegOps CircuitBuilder Rooted

/-- `Sends` in terms of `Does` -/
theorem sends_of_does {α : Type} {ang : Rot → ℝ} {m : M LocalBuilder α} {s : LocalBuilder} {a : α} {L : List ℕ} {U : Asg → Wave}
    (h : Does ang m s a L U) {x : Asg} (hx : Clean s x) (y : Asg) : Sends ang m s a x y ↔ U x = ket y := by
  obtain ⟨s1, a1, -, -, a4⟩ := h
  obtain ⟨seg, p1, -, p3⟩ := a4.seg
  constructor
  · rintro ⟨s2, seg', b1, b2, b3⟩
    have e : s1 = s2 := by
      have := a1.symm.trans b1
      injection this
    subst e
    have e2 : seg = seg' := List.append_cancel_left (p1.symm.trans b2)
    subst e2
    rw [← b3]
    exact (p3 x hx).1.symm
  · intro e
    exact ⟨s1, seg, a1, p1, (p3 x hx).1.trans e⟩

/-! ## C58 -/

/-- C58: a subcircuit of the gates X, Y, Z, H, S, T and CNOT applied inside conditions acts as the subcircuit does if all conditions
hold, and not at all otherwise. `V` is its action on the first qubits; it returns the qubits beyond the register to 0. -/
def C58_claim : Prop :=
  ∀ (s : LocalBuilder) (crs : List Reg) (L : List ℕ) (sc : Pipeline) (r : Reg) (V : Asg → Wave),
    crs ≠ [] → (∀ c ∈ crs, c ≠ []) → r ≠ [] → (∀ e ∈ sc, Condable e) → (∃ e ∈ sc, ∃ k ∈ e.1, r.length ≤ k + 1) →
    Own s (crs.flatten ++ r ++ L) →
    (∀ z, (∀ i, r.length ≤ i → z i = false) →
      runW rotAngle sc (ket z) = V z ∧ ∀ y ∈ (V z).support, ∀ i, r.length ≤ i → y i = false) →
    Does rotAngle (under crs (Recursive.applySub sc r)) s (r, crs) (crs.flatten ++ r ++ L)
      (fun x => if ∀ c ∈ crs.flatten, x c = true then moveW r V x else ket x)

/-- What is applied is the subcircuit with the objects replaced by those of C36. -/
theorem C58_replaced_partial (s : LocalBuilder) (crs : List Reg) (L : List ℕ) (sc : Pipeline) (r : Reg) (V : Asg → Wave)
    (hne : crs ≠ []) (hc : ∀ c ∈ crs, c ≠ []) (hr : r ≠ []) (h : ∀ e ∈ sc, Condable e) (ht : ∃ e ∈ sc, ∃ k ∈ e.1, r.length ≤ k + 1)
    (ho : Own s (crs.flatten ++ r ++ L))
    (hV : ∀ z, (∀ i, r.length ≤ i → z i = false) →
      runW rotAngle (objects condObj sc) (ket z) = V z ∧ ∀ y ∈ (V z).support, ∀ i, r.length ≤ i → y i = false) :
    Does rotAngle (under crs (Recursive.applySub sc r)) s (r, crs) (crs.flatten ++ r ++ L)
      (fun x => if ∀ c ∈ crs.flatten, x c = true then moveW r V x else ket x) := by
  obtain ⟨e, he, k, hk, hle⟩ := ht
  obtain ⟨m, m1, m2⟩ := maxIndex_of_touched ⟨e, he, hk⟩
  refine under_does crs _ hc ?_
  exact applySub_cond (ctl_stack crs s hc) hne hr m1 (by omega) h (by rw [root_stack]; exact ho) V
    fun z hz => ⟨(hV z hz).1, on_iff.mpr (hV z hz).2⟩

/-- As claimed for subcircuits without Y and H. -/
theorem C58_plain_partial (s : LocalBuilder) (crs : List Reg) (L : List ℕ) (sc : Pipeline) (r : Reg) (V : Asg → Wave)
    (hne : crs ≠ []) (hc : ∀ c ∈ crs, c ≠ []) (hr : r ≠ []) (h : ∀ e ∈ sc, Condable e) (ht : ∃ e ∈ sc, ∃ k ∈ e.1, r.length ≤ k + 1)
    (ho : Own s (crs.flatten ++ r ++ L)) (hp : ∀ e ∈ sc, e.2.object ≠ .unitary .Y ∧ e.2.object ≠ .unitary .H)
    (hV : ∀ z, (∀ i, r.length ≤ i → z i = false) →
      runW rotAngle sc (ket z) = V z ∧ ∀ y ∈ (V z).support, ∀ i, r.length ≤ i → y i = false) :
    Does rotAngle (under crs (Recursive.applySub sc r)) s (r, crs) (crs.flatten ++ r ++ L)
      (fun x => if ∀ c ∈ crs.flatten, x c = true then moveW r V x else ket x) := by
  refine C58_replaced_partial s crs L sc r V hne hc hr h ht ho ?_
  have e : objects condObj sc = sc := by
    unfold objects
    conv_rhs => rw [← List.map_id sc]
    refine List.map_congr_left fun e he => ?_
    obtain ⟨h1, h2⟩ := hp e he
    have : condObj e.2 = e.2 := by
      unfold condObj
      split
      · rename_i h3; exact absurd h3 h2
      · rename_i h3; exact absurd h3 h1
      · rfl
    rw [this]
    rfl
  rw [e]
  exact hV

/-- one `h` -/
def oneH : Pipeline := [([0], ⟨1, .unitary .H⟩)]

theorem oneH_condable : ∀ e ∈ oneH, Condable e := by
  intro e he
  rw [oneH, List.mem_singleton] at he
  subst he
  exact ⟨by simp, .inl ⟨rfl, by simp⟩⟩

theorem low_gate (m : ℕ → ℕ → ℂ) (z : Asg) (hz : ∀ i, 1 ≤ i → z i = false) : ∀ y ∈ (gateW [0] m (ket z)).support, ∀ i, 1 ≤ i → y i = false := by
  intro y hy i hi
  have := on_iff.mp (gate1_keeps (q := 0) (p := i) (by omega) m z) y hy
  rw [show y i = z i from this]
  exact hz i hi

/-- The subcircuit of one `h` refutes it. -/
theorem C58_refuted : ¬ C58_claim := by
  intro h
  have o : Own twoQubits ([[0]].flatten ++ [1] ++ []) := twoQubits_own
  have h1 := h twoQubits [[0]] [] oneH [1] (fun z => gateW [0] (uMat rotAngle 1 .H) (ket z)) (by simp) (by simp) (by simp) oneH_condable
    ⟨_, List.mem_singleton.mpr rfl, 0, by simp, by simp⟩ o (fun z hz => ⟨rfl, low_gate _ z hz⟩)
  have h2 := C58_replaced_partial twoQubits [[0]] [] oneH [1]
    (fun z => gateW [0] (uMat rotAngle 1 (.MAT [sin (1 / 4), cos (1 / 4), cos (1 / 4), -sin (1 / 4)])) (ket z)) (by simp) (by simp) (by simp) oneH_condable
    ⟨_, List.mem_singleton.mpr rfl, 0, by simp, by simp⟩ o (fun z hz => ⟨rfl, low_gate _ z hz⟩)
  have e := does_unique h1 h2 _ firstOne_clean
  have hf : ∀ c ∈ ([[0]] : List Reg).flatten, firstOne c = true := by simp [firstOne]
  simp only [if_pos hf] at e
  rw [moveW_eq, moveW_eq, gate1_ket, gate1_ket] at e
  simp only [map_add, map_smul, embW_ket] at e
  have e0 : pull [1] firstOne 0 = false := rfl
  have e1 : emb [1] firstOne (setQ 0 false (pull [1] firstOne)) 1 = false := rfl
  have e2 : emb [1] firstOne (setQ 0 true (pull [1] firstOne)) 1 = true := rfl
  have hne : emb [1] firstOne (setQ 0 false (pull [1] firstOne)) ≠ emb [1] firstOne (setQ 0 true (pull [1] firstOne)) := fun h => by
    rw [h, e2] at e1; cases e1
  have e3 := DFunLike.congr_fun e (emb [1] firstOne (setQ 0 true (pull [1] firstOne)))
  simp only [Finsupp.add_apply, Finsupp.smul_apply, ket_apply, if_neg hne, if_neg hne.symm, if_pos, smul_eq_mul, mul_zero, mul_one, zero_add, e0] at e3
  have e4 : ((1 / Real.sqrt 2 : ℝ) : ℂ) = ((Real.cos (1 / 4) : ℝ) : ℂ) := by
    push_cast
    simpa [uMat, mat2] using e3
  have e5 : 1 / Real.sqrt 2 = Real.cos (1 / 4) := by exact_mod_cast e4
  have h5 := Real.one_sub_sq_div_two_le_cos (x := 1 / 4)
  have h6 : (1 / Real.sqrt 2) ^ 2 = 1 / 2 := by rw [div_pow, Real.sq_sqrt (by norm_num)]; norm_num
  rw [e5] at h6
  nlinarith

theorem low_run (sc : Pipeline) (k : ℕ) (h : ∀ e ∈ sc, ∀ q ∈ e.1, q < k) (z : Asg) (hz : ∀ i, k ≤ i → z i = false) :
    ∀ y ∈ (runW rotAngle sc (ket z)).support, ∀ i, k ≤ i → y i = false := by
  refine on_iff.mp (On.run (S := {y | ∀ i, k ≤ i → y i = false}) rotAngle (On.ket hz) sc fun e he y hy c i hi => ?_)
  rw [writeQ_not_mem _ _ _ _ (fun hm => by have := h e he i hm; omega)]
  exact hy i hi

/-- a CNOT and a T inside two conditions of two qubits and one qubit -/
example : Does rotAngle (under [[0, 5], [3]] (Recursive.applySub [([0, 1], ⟨2, .unitary .CNOT⟩), ([1], ⟨1, .unitary .T⟩)] [2, 1]))
    ⟨[], 6, [[4]], 0⟩ ([2, 1], [[0, 5], [3]]) ([[0, 5], [3]].flatten ++ [2, 1] ++ []) (fun x => if ∀ c ∈ ([[0, 5], [3]] : List Reg).flatten, x c = true then
      moveW [2, 1] (fun z => runW rotAngle [([0, 1], ⟨2, .unitary .CNOT⟩), ([1], ⟨1, .unitary .T⟩)] (ket z)) x else ket x) := by
  refine C58_plain_partial _ _ _ _ _ _ (by simp) (by simp) (by simp) ?_ ⟨_, List.mem_cons_self, 1, by simp, by simp⟩
    ⟨by simp, by simp, by simp⟩ (by simp) fun z hz => ⟨rfl, low_run _ 2 (by simp) z hz⟩
  intro e he
  simp only [List.mem_cons, List.not_mem_nil, or_false] at he
  rcases he with rfl | rfl
  · exact ⟨by simp, .inr ⟨rfl, rfl⟩⟩
  · exact ⟨by simp, .inl ⟨rfl, by simp⟩⟩

/-- the `h` above -/
example := C58_replaced_partial twoQubits [[0]] [] oneH [1]
    (fun z => gateW [0] (uMat rotAngle 1 (.MAT [sin (1 / 4), cos (1 / 4), cos (1 / 4), -sin (1 / 4)])) (ket z)) (by simp) (by simp) (by simp) oneH_condable
    ⟨_, List.mem_singleton.mpr rfl, 0, by simp, by simp⟩ twoQubits_own (fun z hz => ⟨rfl, low_gate _ z hz⟩)

/-! ## C59 -/

/-- C59: `add` inside conditions that hold adds -/
def C59_claim : Prop :=
  ∀ (s : LocalBuilder) (crs : List Reg) (c0 : ℕ) (ct a b : Reg) (L : List ℕ) (x : Asg), crs ≠ [] → (∀ c ∈ crs, c ≠ []) →
    a.length = ct.length + 1 → b.length = ct.length + 2 → Own s (crs.flatten ++ [c0 :: ct, a, b].flatten ++ L) → Clean s x →
    (∀ q ∈ ct, x q = false) → (∀ c ∈ crs.flatten, x c = true) →
    Sends rotAngle (under crs (Arith.add [c0 :: ct, a, b])) s ([c0 :: ct, a, b], crs) x
      (putVal b ((valQ a x + valQ b x + (x c0).toNat) % 2 ^ b.length) x)

/-- the effect inside conditions -/
theorem add_under (s : LocalBuilder) (crs : List Reg) (c0 : ℕ) (ct a b : Reg) (L : List ℕ) (hne : crs ≠ []) (hc : ∀ c ∈ crs, c ≠ [])
    (ha : a.length = ct.length + 1) (hb : b.length = ct.length + 2) (ho : Own s (crs.flatten ++ [c0 :: ct, a, b].flatten ++ L)) :
    Does rotAngle (under crs (Arith.add [c0 :: ct, a, b])) s ([c0 :: ct, a, b], crs) (crs.flatten ++ [c0 :: ct, a, b].flatten ++ L)
      (fun x => if ∀ c ∈ crs.flatten, x c = true then addW (c0 :: ct) a b x else ket x) :=
  under_does crs _ hc ((Moves.add hne c0 ct a b ha hb).does _ L (ctl_stack crs s hc) (by rw [root_stack]; exact ho))

/-- Inside conditions that hold, `add` adds if there is no carry from a position to the next one except to the last qubit of `b`.
Otherwise it gives no basis state at all. -/
theorem C59_exact_partial (s : LocalBuilder) (crs : List Reg) (c0 : ℕ) (ct a b : Reg) (L : List ℕ) (x : Asg) (hne : crs ≠ []) (hc : ∀ c ∈ crs, c ≠ [])
    (ha : a.length = ct.length + 1) (hb : b.length = ct.length + 2) (ho : Own s (crs.flatten ++ [c0 :: ct, a, b].flatten ++ L)) (hx : Clean s x)
    (h0 : ∀ q ∈ ct, x q = false) (h1 : ∀ c ∈ crs.flatten, x c = true) :
    ((∀ i, 0 < i → i < a.length → valQ a x % 2 ^ i + valQ b x % 2 ^ i + (x c0).toNat < 2 ^ i) →
      Sends rotAngle (under crs (Arith.add [c0 :: ct, a, b])) s ([c0 :: ct, a, b], crs) x
        (putVal b ((valQ a x + valQ b x + (x c0).toNat) % 2 ^ b.length) x)) ∧
    ∀ y, Sends rotAngle (under crs (Arith.add [c0 :: ct, a, b])) s ([c0 :: ct, a, b], crs) x y →
      ∀ i, 0 < i → i < a.length → valQ a x % 2 ^ i + valQ b x % 2 ^ i + (x c0).toNat < 2 ^ i := by
  have hn : ((c0 :: ct) ++ a ++ b).Nodup := by
    have := (List.nodup_append.mp (List.nodup_append.mp ho.left).1).2.1
    simpa using this
  have hd := add_under s crs c0 ct a b L hne hc ha hb ho
  have e := fun y => sends_of_does hd hx y
  simp only [if_pos h1] at e
  refine ⟨fun h => (e _).mpr ?_, fun y hy => ?_⟩
  · rw [addW_nocarry c0 ct a b hn ha hb x h0 (by simpa only [valQ_take] using h)]
    obtain ⟨v, k⟩ := add_value c0 ct a b hn ha hb x h0
    congr 1
    funext q
    by_cases hq : q ∈ b
    · refine valQ_inj b _ _ ?_ q hq
      rw [v, valQ_putVal b (List.nodup_append.mp hn).2.1 _ (Nat.mod_lt _ (by positivity)), Nat.add_comm (valQ b x)]
    · rw [k q hq]; exact (if_neg hq).symm
  · have := addW_carry c0 ct a b hn ha hb x h0 y ((e y).mp hy)
    simpa only [valQ_take] using this

/-- If a condition does not hold, nothing happens. -/
theorem C59_not_held (s : LocalBuilder) (crs : List Reg) (c0 : ℕ) (ct a b : Reg) (L : List ℕ) (x : Asg) (hc : ∀ c ∈ crs, c ≠ [])
    (ha : a.length = ct.length + 1) (hb : b.length = ct.length + 2) (ho : Own s (crs.flatten ++ [c0 :: ct, a, b].flatten ++ L)) (hx : Clean s x)
    (h1 : ¬ ∀ c ∈ crs.flatten, x c = true) :
    Sends rotAngle (under crs (Arith.add [c0 :: ct, a, b])) s ([c0 :: ct, a, b], crs) x x := by
  have hne : crs ≠ [] := by rintro rfl; simp at h1
  exact (sends_of_does (add_under s crs c0 ct a b L hne hc ha hb ho) hx x).mpr (if_neg h1)

/-- eight qubits in use -/
def eightQubits : LocalBuilder := ⟨[], 8, [], 0⟩

theorem eightQubits_own : Own eightQubits ([[7]].flatten ++ [[0, 1], [2, 3], [4, 5, 6]].flatten ++ []) := ⟨by simp [eightQubits], by decide, by decide⟩

/-- the basis state in which exactly the qubits of `l` are 1 -/
def ones (l : List ℕ) : Asg := fun q => decide (q ∈ l)

theorem ones_clean (k : ℕ) (l : List ℕ) (h : ∀ q ∈ l, q < k) : Clean ⟨[], k, [], 0⟩ (ones l) := by
  intro q hq
  refine decide_eq_false fun hm => ?_
  have := h q hm
  simp at hq
  omega

/-- 1 + 1 with two qubits, inside one condition -/
theorem C59_refuted : ¬ C59_claim := by
  intro h
  have h1 := h eightQubits [[7]] 0 [1] [2, 3] [4, 5, 6] [] (ones [7, 2, 4]) (by simp) (by simp) rfl rfl eightQubits_own (ones_clean 8 _ (by simp)) (by simp [ones]) (by simp [ones])
  have h2 := (C59_exact_partial eightQubits [[7]] 0 [1] [2, 3] [4, 5, 6] [] (ones [7, 2, 4]) (by simp) (by simp) rfl rfl eightQubits_own (ones_clean 8 _ (by simp))
    (by simp [ones]) (by simp [ones])).2 _ h1 1 (by simp) (by simp)
  simp [ones, valQ] at h2

/-- 1 + 2 = 3 inside the condition -/
example : Sends rotAngle (under [[7]] (Arith.add [[0, 1], [2, 3], [4, 5, 6]])) eightQubits ([[0, 1], [2, 3], [4, 5, 6]], [[7]]) (ones [7, 2, 5])
    (putVal [4, 5, 6] ((valQ [2, 3] (ones [7, 2, 5]) + valQ [4, 5, 6] (ones [7, 2, 5]) + (ones [7, 2, 5] 0).toNat) % 2 ^ 3) (ones [7, 2, 5])) ∧
    (valQ [2, 3] (ones [7, 2, 5]) + valQ [4, 5, 6] (ones [7, 2, 5]) + (ones [7, 2, 5] 0).toNat) % 2 ^ 3 = 3 := by
  refine ⟨(C59_exact_partial eightQubits [[7]] 0 [1] [2, 3] [4, 5, 6] [] (ones [7, 2, 5]) (by simp) (by simp) rfl rfl eightQubits_own (ones_clean 8 _ (by simp))
    (by simp [ones]) (by simp [ones])).1 ?_, by simp [ones, valQ]⟩
  intro i h0 hi
  obtain rfl : i = 1 := by simp at hi; omega
  simp [ones, valQ]

example := C59_not_held eightQubits [[7]] 0 [1] [2, 3] [4, 5, 6] [] (ones [2, 4]) (by simp) rfl rfl eightQubits_own (ones_clean 8 _ (by simp)) (by simp [ones])

/-! ## C49 -/

/-- C49 as stated. -/
def C49_claim : Prop :=
  ∀ (s : LocalBuilder) (ra rb rm : Reg) (L : List ℕ) (x : Asg), ra ≠ [] → rm.length = ra.length → rb.length = ra.length + 1 →
    Own s (ra ++ rb ++ rm ++ L) → Clean s x → valQ ra x < valQ rm x → valQ rb x < valQ rm x →
    Sends rotAngle (Arith.addMod [ra, rb, rm]) s [ra, rb, rm] x (putVal rb ((valQ ra x + valQ rb x) % valQ rm x) x)

/-- `add_mod` works if `m ≤ a + b`, or else if subtracting `m` from `a + b` needs no borrowing between positions (then adding `m` inside
the condition has no carries). Otherwise it gives no basis state at all. -/
theorem C49_exact_partial (s : LocalBuilder) (ra rb rm : Reg) (L : List ℕ) (x : Asg) (hne : ra ≠ []) (hm : rm.length = ra.length)
    (hb : rb.length = ra.length + 1) (ho : Own s (ra ++ rb ++ rm ++ L)) (hx : Clean s x) (h1 : valQ ra x < valQ rm x) (h2 : valQ rb x < valQ rm x) :
    ((valQ rm x ≤ valQ ra x + valQ rb x ∨ ∀ i < ra.length, valQ rm x % 2 ^ i ≤ (valQ ra x + valQ rb x) % 2 ^ i) →
      Sends rotAngle (Arith.addMod [ra, rb, rm]) s [ra, rb, rm] x (putVal rb ((valQ ra x + valQ rb x) % valQ rm x) x)) ∧
    ∀ y, Sends rotAngle (Arith.addMod [ra, rb, rm]) s [ra, rb, rm] x y →
      valQ rm x ≤ valQ ra x + valQ rb x ∨ ∀ i < ra.length, valQ rm x % 2 ^ i ≤ (valQ ra x + valQ rb x) % 2 ^ i := by
  obtain ⟨s', seg, t, c0, ct, r1, r2, r3, r4, -, r5⟩ := addMod_run hne hm hb ho
  obtain ⟨k1, k2⟩ := r5 x hx
  refine ⟨fun h => ⟨s', seg, r1, r2, k2.trans (mod_value _ ra rb rm t c0 ct rfl hm hb r3 r4 x k1 h1 h2 h)⟩, ?_⟩
  rintro y ⟨s2, seg', b1, b2, b3⟩
  obtain rfl : s' = s2 := by
    have := r1.symm.trans b1
    injection this
  obtain rfl : seg = seg' := List.append_cancel_left (r2.symm.trans b2)
  exact mod_needs _ ra rb rm t c0 ct rfl hm hb r3 r4 x k1 h1 h2 y (k2.symm.trans b3)

/-- In particular it works for registers `a` and `m` of one qubit (and `b` of two). -/
theorem C49_one_qubit_partial (s : LocalBuilder) (a m : ℕ) (rb : Reg) (L : List ℕ) (x : Asg) (hb : rb.length = 2) (ho : Own s ([a] ++ rb ++ [m] ++ L))
    (hx : Clean s x) (h1 : valQ [a] x < valQ [m] x) (h2 : valQ rb x < valQ [m] x) :
    Sends rotAngle (Arith.addMod [[a], rb, [m]]) s [[a], rb, [m]] x (putVal rb ((valQ [a] x + valQ rb x) % valQ [m] x) x) :=
  (C49_exact_partial s [a] rb [m] L x (by simp) rfl hb ho hx h1 h2).1 (.inr fun i hi => by
    obtain rfl : i = 0 := by simp at hi; omega
    simp [Nat.mod_one])

/-- Other sizes are an error, and nothing is added to the circuit. -/
theorem C49_sizes {k : ℕ} (s : NB k) (ra rb rm : Reg) (h : ¬ (rm.length = ra.length ∧ rb.length = ra.length + 1)) :
    Arith.addMod [ra, rb, rm] s = .error .error s := by
  rw [Arith.addMod]
  by_cases h1 : ra.length ≠ rm.length
  · rw [if_pos h1]; rfl
  · rw [if_neg h1, if_pos (by tauto)]; rfl

theorem sevenQubits_own' : Own sevenQubits ([0, 1] ++ [2, 3, 4] ++ [5, 6] ++ []) := ⟨by simp [sevenQubits], by decide, by decide⟩

/-- 1 + 1 modulo 3 -/
theorem C49_refuted : ¬ C49_claim := by
  intro h
  have h1 := h sevenQubits [0, 1] [2, 3, 4] [5, 6] [] (ones [0, 2, 5, 6]) (by simp) rfl rfl sevenQubits_own' (ones_clean 7 _ (by simp))
    (by simp [ones, valQ]) (by simp [ones, valQ])
  have h2 := (C49_exact_partial sevenQubits [0, 1] [2, 3, 4] [5, 6] [] (ones [0, 2, 5, 6]) (by simp) rfl rfl sevenQubits_own' (ones_clean 7 _ (by simp))
    (by simp [ones, valQ]) (by simp [ones, valQ])).2 _ h1
  rcases h2 with h2 | h2
  · simp [ones, valQ] at h2
  · have := h2 1 (by simp)
    simp [ones, valQ] at this

/-- 2 + 2 = 1 modulo 3 -/
example : Sends rotAngle (Arith.addMod [[0, 1], [2, 3, 4], [5, 6]]) sevenQubits [[0, 1], [2, 3, 4], [5, 6]] (ones [1, 3, 5, 6])
    (putVal [2, 3, 4] ((valQ [0, 1] (ones [1, 3, 5, 6]) + valQ [2, 3, 4] (ones [1, 3, 5, 6])) % valQ [5, 6] (ones [1, 3, 5, 6])) (ones [1, 3, 5, 6])) ∧
    (valQ [0, 1] (ones [1, 3, 5, 6]) + valQ [2, 3, 4] (ones [1, 3, 5, 6])) % valQ [5, 6] (ones [1, 3, 5, 6]) = 1 :=
  ⟨(C49_exact_partial sevenQubits [0, 1] [2, 3, 4] [5, 6] [] (ones [1, 3, 5, 6]) (by simp) rfl rfl sevenQubits_own' (ones_clean 7 _ (by simp))
    (by simp [ones, valQ]) (by simp [ones, valQ])).1 (.inl (by simp [ones, valQ])), by simp [ones, valQ]⟩

/-- 0 + 1 = 1 modulo 3, with a borrow-free subtraction -/
example : Sends rotAngle (Arith.addMod [[0, 1], [2, 3, 4], [5, 6]]) sevenQubits [[0, 1], [2, 3, 4], [5, 6]] (ones [2, 5, 6])
    (putVal [2, 3, 4] ((valQ [0, 1] (ones [2, 5, 6]) + valQ [2, 3, 4] (ones [2, 5, 6])) % valQ [5, 6] (ones [2, 5, 6])) (ones [2, 5, 6])) :=
  (C49_exact_partial sevenQubits [0, 1] [2, 3, 4] [5, 6] [] (ones [2, 5, 6]) (by simp) rfl rfl sevenQubits_own' (ones_clean 7 _ (by simp))
    (by simp [ones, valQ]) (by simp [ones, valQ])).1 (.inr fun i hi => by
      simp at hi
      interval_cases i <;> simp [ones, valQ, Nat.mod_one])

/-- 0 + 0 = 0 modulo 1 -/
example := C49_one_qubit_partial ⟨[], 5, [[4]], 0⟩ 0 1 [2, 3] [] (ones [1]) rfl ⟨by simp, by decide, by decide⟩
  (by intro q hq; refine decide_eq_false fun hm => ?_; simp at hm hq; omega) (by simp [ones, valQ]) (by simp [ones, valQ])

example : Arith.addMod [[0, 1], [2, 3, 4], [5]] (sevenQubits : NB 0) = .error .error sevenQubits :=
  C49_sizes (k := 0) sevenQubits [0, 1] [2, 3, 4] [5] (by simp)

end Verif.Props
