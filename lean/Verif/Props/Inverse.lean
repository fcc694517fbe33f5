import Verif.Proofs.InvertSends
import Verif.Props.Idle

/-!
# Properties C74, C75: the inverse circuits made by `#[invert]`

C74: the inverse of an arithmetic circuit takes back exactly what the circuit does. C75: `add_mod_inv` subtracts modulo `m`; refuted, since
`add_mod` does not add modulo `m`, with the exact criterion.
-/

namespace Verif.Props
open Classical Complex RegOps CircuitBuilder Rooted

/-! ## C74 -/

/-- the circuit a generated inverse belongs to -/
def undone : Circ → Option Circ
  | .copyInv => some .copy
  | .lshift => some .rshift
  | .addInv => some .add
  | .addModInv => some .addMod
  | .timesModInv => some .timesMod
  | .squareModInv => some .squareMod
  | .expModInv => some .expMod
  | _ => none

/-- Of basis states `x` and `y` that differ only in the registers `rs`: the inverse circuit sends `x` to `y`, in any builder, if and only if the
circuit itself, on registers made in a new builder, sends the values of `rs` in `y` to those in `x`. -/
theorem C74_undoes (s : LocalBuilder) (c c' : Circ) (rs : List Reg) (L : List ℕ) (x y : Asg) (hc : undone c' = some c) (hr : ∀ r ∈ rs, r ≠ [])
    (hf : c'.Fits (rs.map List.length)) (ho : Own s (rs.flatten ++ L)) (hx : Clean s x) (hy : ∀ q, q ∉ rs.flatten → y q = x q) :
    Sends rotAngle (c'.run rs) s rs x y ↔ Sends rotAngle (c.run (ranges 0 (rs.map List.length))) ⟨[], rs.flatten.length, [], 0⟩
      (ranges 0 (rs.map List.length)) (pull rs.flatten y) (pull rs.flatten x) := by
  have pos : ∀ r ∈ rs, 0 < r.length := fun r h => List.length_pos_iff.mpr (hr r h)
  have h0 : rs.length = c'.args := by
    rw [← List.length_map (f := List.length) (as := rs)]
    generalize rs.map List.length = l at hf
    unfold Circ.Fits at hf
    split at hf <;> first | rfl | exact hf.elim
  cases c' <;> simp only [Circ.args] at h0 <;> simp only [undone, Option.some.injEq, reduceCtorEq] at hc
  all_goals subst hc
  all_goals first
    | (obtain ⟨a, rfl⟩ := List.length_eq_one_iff.mp h0)
    | (obtain ⟨a, b, rfl⟩ := List.length_eq_two.mp h0)
    | (obtain ⟨a, b, d, rfl⟩ := List.length_eq_three.mp h0)
    | (obtain ⟨a, b, d, e, rfl⟩ := List.length_eq_four.mp h0)
    | (obtain ⟨a, b, d, e, g, rfl⟩ := length_five h0)
  case copyInv =>
    have h1 := pos a (by simp)
    have h2 : a.length = b.length := hf
    refine invert_sends (f := Arith.copy) (by simp) hr (Quiet.copy (β := LocalBuilder) (cs := []) (List.range' 0 a.length) (List.range' (0 + a.length) b.length)
      (by simpa using hr a (by simp)) (by simpa using h2) (a.length - 1) (by simp; omega)) (.inr ?_) ho hx hy
    rw [List.getD_eq_getElem _ _ (by simp; omega)]
    simp
    omega
  case lshift =>
    have h2 : 2 ≤ a.length := hf
    refine invert_sends (f := Arith.rshift) (by simp) hr (Quiet.rshift (β := LocalBuilder) (cs := []) (List.range' 0 a.length) (by simpa using h2) (by simp)
      (a.length - 1) (by simp; omega)) (.inr ?_) ho hx hy
    rw [List.getD_eq_getElem _ _ (by simp; omega)]
    simp
  case addInv =>
    have h1 := pos a (by simp)
    have h2 : b.length = a.length ∧ d.length = a.length + 1 := hf
    refine invert_sends (f := Arith.add) (by simp) hr (Quiet.add (β := LocalBuilder) (cs := []) (List.range' 0 a.length) (List.range' (0 + a.length) b.length)
      (List.range' (0 + a.length + b.length) d.length) (by simpa using hr a (by simp)) (by simpa using h2.1) (by simpa using h2.2)) (.inr ?_) ho hx hy
    rw [List.getD_eq_getElem _ _ (by simp; omega)]
    simp
    omega
  case addModInv =>
    have h1 := pos a (by simp)
    have h2 : d.length = a.length ∧ b.length = a.length + 1 := hf
    exact invert_sends (f := Arith.addMod) (by simp) hr (Quiet.addMod (β := LocalBuilder) (cs := []) (List.range' 0 a.length) (List.range' (0 + a.length) b.length)
      (List.range' (0 + a.length + b.length) d.length) (by simpa using hr a (by simp)) (by simpa using h2.1) (by simpa using h2.2)) (.inl (by simp)) ho hx hy
  case timesModInv =>
    have h1 := pos b (by simp)
    have h3 := pos d (by simp)
    have h2 : a.length = d.length + 1 ∧ e.length = d.length + 1 := hf
    exact invert_sends (f := Arith.timesMod) (by simp) hr (Quiet.timesMod (β := LocalBuilder) (cs := []) (List.range' 0 a.length) (List.range' (0 + a.length) b.length)
      (List.range' (0 + a.length + b.length) d.length) (List.range' (0 + a.length + b.length + d.length) e.length) (by simpa using hr b (by simp)) (by simpa using hr d (by simp))
      (by simpa using h2.1) (by simpa using h2.2)) (.inl (by simp)) ho hx hy
  case squareModInv =>
    have h3 := pos b (by simp)
    have h2 : a.length = b.length + 1 ∧ d.length = b.length + 1 := hf
    exact invert_sends (f := Arith.squareMod) (by simp) hr (Quiet.squareMod (β := LocalBuilder) (cs := []) (List.range' 0 a.length) (List.range' (0 + a.length) b.length)
      (List.range' (0 + a.length + b.length) d.length) (by simpa using hr b (by simp)) (by simpa using h2.1) (by simpa using h2.2)) (.inl (by simp)) ho hx hy
  case expModInv =>
    have h1 := pos b (by simp)
    have h3 := pos d (by simp)
    have h2 : a.length = d.length + 1 ∧ e.length = d.length + 1 ∧ g.length = d.length + 1 := hf
    exact invert_sends (f := Arith.expMod) (by simp) hr (Quiet.expMod (β := LocalBuilder) (cs := []) (List.range' 0 a.length) (List.range' (0 + a.length) b.length)
      (List.range' (0 + a.length + b.length) d.length) (List.range' (0 + a.length + b.length + d.length) e.length)
      (List.range' (0 + a.length + b.length + d.length + e.length) g.length) (by simpa using hr b (by simp)) (by simpa using hr d (by simp))
      (by simpa using h2.1) (by simpa using h2.2.1) (by simpa using h2.2.2)) (.inl (by simp)) ho hx hy

/-! ## C75 -/

/-- C75 as stated. -/
def C75_claim : Prop :=
  ∀ (s : LocalBuilder) (ra rb rm : Reg) (L : List ℕ) (x : Asg), ra ≠ [] → rm.length = ra.length → rb.length = ra.length + 1 →
    Own s (ra ++ rb ++ rm ++ L) → Clean s x → valQ ra x < valQ rm x → valQ rb x < valQ rm x →
    Sends rotAngle (Arith.addModInv [ra, rb, rm]) s [ra, rb, rm] x (putVal rb ((valQ rb x + valQ rm x - valQ ra x) % valQ rm x) x)

/-- the value of a register as that of the register made for it in a new builder -/
theorem valQ_pull (rs : List Reg) (y : Asg) (i : ℕ) : valQ ((ranges 0 (rs.map List.length)).getD i []) (pull rs.flatten y) = valQ (rs.getD i []) y := by
  have h := ranges_getD rs
  have hl : rs.flatten.length = (rs.map List.length).sum := List.length_flatten
  have hm : ∀ r ∈ ranges 0 (rs.map List.length), ∀ q ∈ r, q < rs.flatten.length := by
    intro r hr q hq
    have : q ∈ (ranges 0 (rs.map List.length)).flatten := List.mem_flatten.mpr ⟨r, hr, hq⟩
    rw [ranges_flatten, List.mem_range'_1] at this
    omega
  have hlen : (ranges 0 (rs.map List.length)).length = rs.length := by
    have := congrArg List.length h
    simpa using this
  by_cases hi : i < rs.length
  · have e : rs.getD i [] = ((ranges 0 (rs.map List.length)).getD i []).map fun j => rs.flatten.getD j 0 := by
      conv_lhs => rw [← h]
      rw [List.getD_eq_getElem _ _ (by simpa [hlen] using hi), List.getElem_map, List.getD_eq_getElem _ _ (by omega)]
    rw [e]
    have hr : ∀ q ∈ (ranges 0 (rs.map List.length)).getD i [], q < rs.flatten.length := by
      rw [List.getD_eq_getElem _ _ (by omega)]
      exact hm _ (List.getElem_mem _)
    generalize (ranges 0 (rs.map List.length)).getD i [] = r at hr
    induction r with
    | nil => rfl
    | cons q r ih =>
      have h1 := hr q (by simp)
      simp only [valQ, List.map_cons] at ih ⊢
      rw [ih fun q hq => hr q (by simp [hq])]
      simp only [pull, if_pos h1]
  · rw [List.getD_eq_default _ _ (by omega), List.getD_eq_default _ _ (by omega)]
    rfl

theorem putVal_pull (rs : List Reg) (hn : rs.flatten.Nodup) (x : Asg) (i v w : ℕ) (hi : i < rs.length) (hv : v < 2 ^ (rs.getD i []).length)
    (hw : w = valQ (rs.getD i []) x) :
    putVal ((ranges 0 (rs.map List.length)).getD i []) w (pull rs.flatten (putVal (rs.getD i []) v x)) = pull rs.flatten x := by
  have h := ranges_getD rs
  have hl : rs.flatten.length = (rs.map List.length).sum := List.length_flatten
  have hfl : (ranges 0 (rs.map List.length)).flatten = List.range' 0 rs.flatten.length := by rw [ranges_flatten, hl]
  have hlen : (ranges 0 (rs.map List.length)).length = rs.length := by
    have := congrArg List.length h
    simpa using this
  set r := (ranges 0 (rs.map List.length)).getD i [] with hr
  have hrm : r ∈ ranges 0 (rs.map List.length) := by
    rw [hr, List.getD_eq_getElem _ _ (by omega)]
    exact List.getElem_mem _
  have hrn : r.Nodup := by
    have : (ranges 0 (rs.map List.length)).flatten.Nodup := by rw [hfl]; exact List.nodup_range'
    exact (List.nodup_flatten.mp this).1 r hrm
  have hrl : ∀ q ∈ r, q < rs.flatten.length := by
    intro q hq
    have : q ∈ (ranges 0 (rs.map List.length)).flatten := List.mem_flatten.mpr ⟨r, hrm, hq⟩
    rw [hfl, List.mem_range'_1] at this
    omega
  have e : rs.getD i [] = r.map fun j => rs.flatten.getD j 0 := by
    conv_lhs => rw [← h]
    rw [List.getD_eq_getElem _ _ (by simpa [hlen] using hi), List.getElem_map, hr, List.getD_eq_getElem _ _ (by omega)]
  have e2 : valQ r (pull rs.flatten x) = w := by rw [hr, valQ_pull, hw]
  funext q
  by_cases hq : q ∈ r
  · refine valQ_inj r _ _ ?_ q hq
    rw [valQ_putVal r hrn _ ?_ _, e2]
    rw [← e2]
    exact valQ_lt r _
  · rw [putVal, if_neg hq]
    unfold pull
    by_cases hql : q < rs.flatten.length
    · rw [if_pos hql, if_pos hql, putVal, if_neg]
      rw [e, List.mem_map]
      rintro ⟨j, hj, hjq⟩
      have hjl := hrl j hj
      rw [List.getD_eq_getElem _ _ hjl, List.getD_eq_getElem _ _ hql, hn.getElem_inj_iff] at hjq
      exact hq (hjq ▸ hj)
    · rw [if_neg hql, if_neg hql]

/-- `add_mod_inv` gives `(b - a) mod m` if and only if `b < a`, or subtracting `m` from `b` needs no borrowing between positions. -/
theorem C75_exact_partial (s : LocalBuilder) (ra rb rm : Reg) (L : List ℕ) (x : Asg) (hne : ra ≠ []) (hm : rm.length = ra.length)
    (hb : rb.length = ra.length + 1) (ho : Own s (ra ++ rb ++ rm ++ L)) (hx : Clean s x) (h1 : valQ ra x < valQ rm x) (h2 : valQ rb x < valQ rm x) :
    Sends rotAngle (Arith.addModInv [ra, rb, rm]) s [ra, rb, rm] x (putVal rb ((valQ rb x + valQ rm x - valQ ra x) % valQ rm x) x) ↔
      valQ rb x < valQ ra x ∨ ∀ i < ra.length, valQ rm x % 2 ^ i ≤ valQ rb x % 2 ^ i := by
  have hpos := List.length_pos_iff.mpr hne
  have hbne : rb ≠ [] := List.length_pos_iff.mp (by omega)
  have hmne : rm ≠ [] := List.length_pos_iff.mp (by omega)
  have hfl : [ra, rb, rm].flatten ++ L = ra ++ rb ++ rm ++ L := by simp
  have hnd : (ra ++ rb ++ rm).Nodup := (List.nodup_append.mp ho.left).1
  have hnd' : [ra, rb, rm].flatten.Nodup := by simpa using hnd
  set v := (valQ rb x + valQ rm x - valQ ra x) % valQ rm x with hv
  have hvm : v < valQ rm x := Nat.mod_lt _ (by omega)
  have hml := valQ_lt rm x
  have hvl : v < 2 ^ rb.length := by
    rw [hb, ← hm, pow_succ]
    omega
  rw [show Sends rotAngle (Arith.addModInv [ra, rb, rm]) s [ra, rb, rm] x (putVal rb v x) ↔ _ from
    C74_undoes s .addMod .addModInv [ra, rb, rm] L x (putVal rb v x) rfl (by simp [hne, hbne, hmne]) ⟨hm, hb⟩ (by rw [hfl]; exact ho) hx
      (fun q hq => if_neg fun h => hq (by simp [h]))]
  have hrb : rb.Nodup := (List.nodup_append.mp (List.nodup_append.mp hnd).1).2.1
  have va : valQ (List.range' 0 ra.length) (pull [ra, rb, rm].flatten (putVal rb v x)) = valQ ra x := by
    rw [show List.range' 0 ra.length = (ranges 0 ([ra, rb, rm].map List.length)).getD 0 [] from rfl, valQ_pull]
    refine valQ_congr ra _ _ fun q hq => if_neg fun h => ?_
    exact List.disjoint_of_nodup_append (List.nodup_append.mp hnd).1 hq h
  have vb : valQ (List.range' (0 + ra.length) rb.length) (pull [ra, rb, rm].flatten (putVal rb v x)) = v := by
    rw [show List.range' (0 + ra.length) rb.length = (ranges 0 ([ra, rb, rm].map List.length)).getD 1 [] from rfl, valQ_pull]
    exact valQ_putVal rb hrb v hvl x
  have vm : valQ (List.range' (0 + ra.length + rb.length) rm.length) (pull [ra, rb, rm].flatten (putVal rb v x)) = valQ rm x := by
    rw [show List.range' (0 + ra.length + rb.length) rm.length = (ranges 0 ([ra, rb, rm].map List.length)).getD 2 [] from rfl, valQ_pull]
    refine valQ_congr rm _ _ fun q hq => if_neg fun h => ?_
    exact List.disjoint_of_nodup_append hnd (by simp [h]) hq
  have hsum : (valQ ra x + v) % valQ rm x = valQ rb x := by
    rw [hv, Nat.add_mod_mod, show valQ ra x + (valQ rb x + valQ rm x - valQ ra x) = valQ rb x + valQ rm x by omega, Nat.add_mod_right, Nat.mod_eq_of_lt h2]
  have hcrit : (valQ rm x ≤ valQ ra x + v ∨ ∀ i < ra.length, valQ rm x % 2 ^ i ≤ (valQ ra x + v) % 2 ^ i) ↔
      (valQ rb x < valQ ra x ∨ ∀ i < ra.length, valQ rm x % 2 ^ i ≤ valQ rb x % 2 ^ i) := by
    by_cases hlt : valQ rb x < valQ ra x
    · have e : v = valQ rb x + valQ rm x - valQ ra x := Nat.mod_eq_of_lt (by omega)
      exact ⟨fun _ => .inl hlt, fun _ => .inl (by omega)⟩
    · have e : v = valQ rb x - valQ ra x := by
        rw [hv, show valQ rb x + valQ rm x - valQ ra x = valQ rb x - valQ ra x + valQ rm x by omega, Nat.add_mod_right, Nat.mod_eq_of_lt (by omega)]
      have e2 : valQ ra x + v = valQ rb x := by omega
      rw [e2]
      constructor
      · rintro (h | h)
        · omega
        · exact .inr h
      · rintro (h | h)
        · omega
        · exact .inr h
  have key := C49_exact_partial ⟨[], [ra, rb, rm].flatten.length, [], 0⟩ (List.range' 0 ra.length) (List.range' (0 + ra.length) rb.length)
    (List.range' (0 + ra.length + rb.length) rm.length) [] (pull [ra, rb, rm].flatten (putVal rb v x)) (by simpa using hne) (by simpa using hm) (by simpa using hb)
    (by
      have e : List.range' 0 ra.length ++ List.range' (0 + ra.length) rb.length ++ List.range' (0 + ra.length + rb.length) rm.length ++ [] =
          (ranges 0 ([ra, rb, rm].map List.length)).flatten := by simp [ranges]
      rw [e, ranges_flatten, ← List.length_flatten, ← List.range_eq_range']
      exact fresh_own _)
    ((fresh_clean _ _).mpr (pull_low _ _)) (by rw [va, vm]; exact h1) (by rw [vb, vm]; exact hvm)
  rw [va, vb, vm, hsum, List.length_range'] at key
  rw [← hcrit]
  have e := putVal_pull [ra, rb, rm] hnd' x 1 v (valQ rb x) (by simp) hvl rfl
  constructor
  · exact fun h => key.2 _ h
  · intro h
    have := key.1 h
    rw [show putVal (List.range' (0 + ra.length) rb.length) (valQ rb x) (pull [ra, rb, rm].flatten (putVal rb v x)) = pull [ra, rb, rm].flatten x from e] at this
    exact this

/-- 2 - 1 modulo 3 -/
theorem C75_refuted : ¬ C75_claim := by
  intro h
  have h1 := h sevenQubits [0, 1] [2, 3, 4] [5, 6] [] (ones [0, 3, 5, 6]) (by simp) rfl rfl sevenQubits_own' (ones_clean 7 _ (by simp))
    (by simp [ones, valQ]) (by simp [ones, valQ])
  have h2 := (C75_exact_partial sevenQubits [0, 1] [2, 3, 4] [5, 6] [] (ones [0, 3, 5, 6]) (by simp) rfl rfl sevenQubits_own' (ones_clean 7 _ (by simp))
    (by simp [ones, valQ]) (by simp [ones, valQ])).mp h1
  rcases h2 with h2 | h2
  · simp [ones, valQ] at h2
  · have := h2 1 (by simp)
    simp [ones, valQ] at this

/-- In particular it works whenever `b < a`. -/
theorem C75_wraps_partial (s : LocalBuilder) (ra rb rm : Reg) (L : List ℕ) (x : Asg) (hne : ra ≠ []) (hm : rm.length = ra.length)
    (hb : rb.length = ra.length + 1) (ho : Own s (ra ++ rb ++ rm ++ L)) (hx : Clean s x) (h1 : valQ ra x < valQ rm x) (h2 : valQ rb x < valQ ra x) :
    Sends rotAngle (Arith.addModInv [ra, rb, rm]) s [ra, rb, rm] x (putVal rb (valQ rb x + valQ rm x - valQ ra x) x) := by
  have := (C75_exact_partial s ra rb rm L x hne hm hb ho hx h1 (by omega)).mpr (.inl h2)
  rwa [Nat.mod_eq_of_lt (by omega)] at this

/-- 1 - 2 = 2 modulo 3 -/
example : Sends rotAngle (Arith.addModInv [[0, 1], [2, 3, 4], [5, 6]]) sevenQubits [[0, 1], [2, 3, 4], [5, 6]] (ones [1, 2, 5, 6])
    (putVal [2, 3, 4] 2 (ones [1, 2, 5, 6])) :=
  C75_wraps_partial sevenQubits [0, 1] [2, 3, 4] [5, 6] [] (ones [1, 2, 5, 6]) (by simp) rfl rfl sevenQubits_own' (ones_clean 7 _ (by simp))
    (by simp [ones, valQ]) (by simp [ones, valQ])

/-- the claim for 1 - 0 = 1 modulo 3 and qubits 0 to 6, in terms of `add_mod` in a new builder -/
example := C74_undoes sevenQubits .addMod .addModInv [[0, 1], [2, 3, 4], [5, 6]] [] (ones [2, 5, 6]) (ones [2, 5, 6]) rfl (by simp) ⟨rfl, rfl⟩
  sevenQubits_own' (ones_clean 7 _ (by simp)) fun _ _ => rfl

/-- the same for `times_mod`, with a qubit of the pool to be used -/
example := C74_undoes ⟨[], 9, [[8], [6]], 0⟩ .timesMod .timesModInv [[0, 1], [2], [3], [4, 5]] [7] (ones [3, 7]) (ones [3, 5, 7]) rfl (by simp) ⟨rfl, rfl⟩
  ⟨by simp, by decide, by decide⟩ (by intro q hq; refine decide_eq_false fun hm => ?_; simp at hm hq; omega) (by intro q hq; refine decide_eq_decide.mpr ?_; simp at hq ⊢; omega)

end Verif.Props
