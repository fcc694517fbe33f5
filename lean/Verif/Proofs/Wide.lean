import Verif.Model.Wide
import Verif.Proofs.Qfft

/-! # `qfft` and masks on machine words -/

namespace Verif

theorem shl_toInt (k : ℕ) (hk : k < 63) : (1#64 <<< k).toInt = 2 ^ k := by
  interval_cases k <;> rfl

theorem shl_min : 1#64 <<< 63 = BitVec.intMin 64 := rfl

/-- the angle the code takes for the exponent `k` -/
def angle64 (k : ℕ) : ℚ := 1 / 2 ^ (k % 64)

theorem angle_ok (checked : Bool) (k : ℕ) (h : k < 63 ∨ checked = false) :
    ∃ m q, shlOne64 checked k = some m ∧ m.toInt ≠ 0 ∧ ratioOne64 checked m = some q ∧ (q.1 : ℚ) / q.2 = angle64 k := by
  have hm : ∃ m, shlOne64 checked k = some m ∧ m = 1#64 <<< (k % 64) := by
    unfold shlOne64
    by_cases hk : k < 64
    · rw [if_pos hk, Nat.mod_eq_of_lt hk]
      exact ⟨_, rfl, rfl⟩
    · rw [if_neg hk]
      have : checked = false := h.resolve_left (by omega)
      subst this
      exact ⟨_, rfl, rfl⟩
  obtain ⟨m, e1, e2⟩ := hm
  have hk : k % 64 < 64 := Nat.mod_lt _ (by norm_num)
  by_cases h3 : k % 64 = 63
  · have hc : checked = false := h.resolve_left (by omega)
    subst hc
    rw [h3, shl_min] at e2
    subst e2
    refine ⟨_, (-1, -2 ^ 63), e1, by decide, by decide, ?_⟩
    unfold angle64
    rw [h3]
    norm_num
  · have ht : m.toInt = 2 ^ (k % 64) := by rw [e2]; exact shl_toInt _ (by omega)
    have hp : (0 : ℤ) < 2 ^ (k % 64) := by positivity
    refine ⟨m, (1, m.toInt), e1, by omega, ?_, ?_⟩
    · unfold ratioOne64
      rw [if_neg (by omega), if_neg (by omega)]
    · unfold angle64
      rw [ht]
      push_cast
      rfl

/-- in a checked build the exponents from 63 on panic -/
theorem angle_panics (k : ℕ) (h : 63 ≤ k) : shlOne64 true k = none ∨ ∃ m, shlOne64 true k = some m ∧ m.toInt ≠ 0 ∧ ratioOne64 true m = none := by
  by_cases hk : k = 63
  · subst hk
    exact .inr ⟨_, rfl, by decide, by decide⟩
  · left
    unfold shlOne64
    rw [if_neg (by omega)]
    rfl

theorem conditioned_onParent (cr : Reg) {α : Type} (m : M LocalBuilder α) : Conditioned.conditioned cr (Conditioned.onParent m) = (do let a ← m; pure (a, cr)) := by
  funext s
  unfold Conditioned.conditioned Conditioned.onParent
  show _ = EStateM.bind m _ s
  unfold EStateM.bind
  cases m s <;> rfl

theorem rzPiBy64_emits (checked : Bool) (r : Reg) (m : BitVec 64) (q : ℤ × ℤ) (h0 : m.toInt ≠ 0) (hq : ratioOne64 checked m = some q) :
    Emits (rzPiBy64 checked r m) r [(r, ⟨r.length, .unitary (.Rz (.piRational (q.1 / q.2)))⟩)] := by
  unfold rzPiBy64
  rw [if_neg h0, hq, unwrapO_some, pure_bind]
  exact applyCO_reg_emits r _

theorem qfftRow64_emits (checked : Bool) (i q j : ℕ) (sl : List (Option Reg)) (p : ℕ) (hj : sl[j]? = some (some [p])) (h : j - i < 63 ∨ checked = false) :
    Emits (qfftRow64 checked i ([q], sl) j) ([q], sl) [([q], ⟨1, .unitary (.Rz (.piRational (angle64 (j - i))))⟩)] := by
  obtain ⟨m, z, h1, h2, h3, h4⟩ := angle_ok checked (j - i) h
  unfold qfftRow64
  rw [hj, h1]
  simp only [Option.join_some, unwrapO_some, pure_bind]
  rw [conditioned_onParent, bind_assoc]
  have e := rzPiBy64_emits checked [q] m z h2 h3
  rw [h4] at e
  refine Emits.cast (Emits.bind e (q := []) (c := ([q], sl)) ?_) rfl (by simp)
  simp only [pure_bind]
  rw [set_same sl j _ hj]
  exact Emits.pure _

/-- the rotations and the Hadamard gate of qubit `q`, followed by `m` more qubits -/
def qfftColSeg64 (q m : ℕ) : Pipeline :=
  ((List.range' 1 m).map fun d => [(([q], ⟨1, .unitary (.Rz (.piRational (angle64 d)))⟩) : List ℕ × CObj)]).flatten ++ each [q] .H

/-- all rotations and Hadamard gates -/
def qfftColsSeg64 : Reg → Pipeline
  | [] => []
  | q :: r => qfftColSeg64 q r.length ++ qfftColsSeg64 r

theorem qfftCol64_emits (checked : Bool) (r : Reg) (i : ℕ) (hi : i < r.length) (h : r.length ≤ 63 ∨ checked = false) :
    Emits (qfftCol64 checked (r.map fun q => some [q]) i) (r.map fun q => some [q]) (qfftColSeg64 r[i] (r.length - (i + 1))) := by
  have hget : ∀ j (hj : j < r.length), (r.map fun q => (some [q] : Option Reg))[j]? = some (some [r[j]]) := fun j hj => by
    simp [hj]
  unfold qfftCol64
  rw [hget i hi]
  simp only [Option.join_some, unwrapO_some, pure_bind, List.length_map]
  refine Emits.bind (foldlM_emits (qfftRow64 checked i) ([r[i]], (r.map fun q => (some [q] : Option Reg)).set i none)
    (fun j => [([r[i]], ⟨1, .unitary (.Rz (.piRational (angle64 (j - i))))⟩)]) _ ?_) (q := each [r[i]] .H) ?_ |>.cast rfl ?_
  · intro j hj
    rw [List.mem_range'_1] at hj
    refine qfftRow64_emits checked i r[i] j _ (r[j]'(by omega)) ?_ (h.imp_left fun h => by omega)
    rw [List.getElem?_set_ne (by omega), hget j (by omega)]
  · refine Emits.cast (Emits.bind (h_emits [r[i]] (by simp) (by simp)) (q := []) (Emits.pure _)) ?_ (by simp)
    exact set_back _ i _ _ (hget i hi)
  · unfold qfftColSeg64
    congr 2
    rw [List.range'_eq_map_range, List.range'_eq_map_range, List.map_map, List.map_map]
    refine List.map_congr_left fun d _ => ?_
    simp only [Function.comp_apply]
    rw [show i + 1 + d - i = 1 + d by omega]

theorem qfftCols64_flatten (r : Reg) :
    ((List.range r.length).map fun i => qfftColSeg64 (r.getD i 0) (r.length - (i + 1))).flatten = qfftColsSeg64 r := by
  induction r with
  | nil => rfl
  | cons q r ih =>
    rw [List.length_cons, List.range_succ_eq_map, List.map_cons, List.flatten_cons, List.map_map, qfftColsSeg64, ← ih]
    congr 1
    congr 1
    refine List.map_congr_left fun i _ => ?_
    simp only [Function.comp_apply, List.getD_cons_succ]
    rw [show r.length + 1 - (i + 1 + 1) = r.length - (i + 1) by omega]

theorem qfft64_emits (checked : Bool) (r : Reg) (hr : r ≠ []) (hn : r.Nodup) (h : r.length ≤ 63 ∨ checked = false) :
    Emits (qfft64 checked r) r (qfftColsSeg64 r ++ qfftSwapsSeg r) := by
  unfold qfft64
  rw [splitAll_eq r hr hn]
  simp only [pure_bind, List.length_map, List.map_map]
  have e1 := foldlM_emits (qfftCol64 checked) (r.map fun q => some [q]) (fun i => qfftColSeg64 (r.getD i 0) (r.length - (i + 1))) (List.range r.length) (by
    intro i hi
    rw [List.mem_range] at hi
    rw [List.getD_eq_getElem _ _ hi]
    exact qfftCol64_emits checked r i hi h)
  have e2 := foldlM_emits qfftSwap (r.map fun q => some [q]) (fun i => swapSeg1 (r.getD i 0, r.getD (r.length - 1 - i) 0))
    (List.range (r.length / 2)) (by
    intro i hi
    rw [List.mem_range] at hi
    rw [List.getD_eq_getElem _ _ (by omega), List.getD_eq_getElem _ _ (by omega)]
    exact qfftSwap_emits r hn i hi)
  rw [qfftCols64_flatten] at e1
  rw [qfftSwaps_flatten] at e2
  refine Emits.bind e1 ?_
  simp only [List.length_map]
  refine Emits.cast (Emits.bind e2 (q := []) (c := r) ?_) rfl (by simp)
  have e3 : (r.map fun q => (some [q] : Option Reg)).mapM id = some (r.map fun q => [q]) := by
    clear e1 e2 hr hn h
    induction r with
    | nil => rfl
    | cons q r ih => rw [List.map_cons, List.mapM_cons, ih]; rfl
  rw [e3]
  simp only [unwrapO_some, pure_bind]
  rw [mergeSingles r hr]
  exact Emits.pure r

theorem qfftColsSeg64_eq (r : Reg) (h : r.length ≤ 64) : qfftColsSeg64 r = qfftColsSeg r := by
  induction r with
  | nil => rfl
  | cons q r ih =>
    rw [List.length_cons] at h
    rw [qfftColsSeg64, qfftColsSeg, ih (by omega)]
    congr 1
    unfold qfftColSeg64 qfftColSeg
    congr 2
    refine List.map_congr_left fun d hd => ?_
    rw [List.mem_range'_1] at hd
    unfold angle64
    rw [Nat.mod_eq_of_lt (by omega)]
    push_cast
    rfl

theorem colsSeg_get (g : ℕ → List ℕ × CObj) (m k : ℕ) (hk : k < m) (t : Pipeline) :
    (((List.range' 1 m).map fun d => [g d]).flatten ++ t)[k]? = some (g (1 + k)) := by
  have e : ((List.range' 1 m).map fun d => [g d]).flatten = (List.range' 1 m).map g := by
    generalize List.range' 1 m = l
    induction l with
    | nil => rfl
    | cons a l ih => rw [List.map_cons, List.flatten_cons, ih]; rfl
  rw [e, List.getElem?_append_left (by simpa using hk), List.getElem?_map, List.getElem?_range' hk]
  simp

theorem bind_panic {α γ : Type} {m : M LocalBuilder α} {f : α → M LocalBuilder γ} {s : LocalBuilder} (h : ∃ s', m s = .error .panic s') :
    ∃ s', (m >>= f) s = .error .panic s' := by
  obtain ⟨s', h⟩ := h
  refine ⟨s', ?_⟩
  show EStateM.bind m f s = _
  unfold EStateM.bind
  rw [h]

theorem qfftRow64_panics (q : ℕ) (sl : List (Option Reg)) (p : ℕ) (hj : sl[63]? = some (some [p])) (s : LocalBuilder) :
    ∃ s', qfftRow64 true 0 ([q], sl) 63 s = .error .panic s' := by
  unfold qfftRow64
  rw [hj]
  simp only [Option.join_some, unwrapO_some, pure_bind]
  obtain h | ⟨m, h1, h2, h3⟩ := angle_panics (63 - 0) (by omega)
  · rw [h]
    exact bind_panic ⟨s, rfl⟩
  · rw [h1, unwrapO_some, pure_bind, conditioned_onParent, bind_assoc]
    refine bind_panic ⟨s, ?_⟩
    unfold rzPiBy64
    rw [if_neg h2, h3]
    rfl

theorem qfft64_panics (r : Reg) (hn : r.Nodup) (h : 64 ≤ r.length) (s : LocalBuilder) : ∃ s', qfft64 true r s = .error .panic s' := by
  have hr : r ≠ [] := by rintro rfl; simp at h
  have hget : ∀ j (hj : j < r.length), (r.map fun q => (some [q] : Option Reg))[j]? = some (some [r[j]]) := fun j hj => by
    simp [hj]
  unfold qfft64
  rw [splitAll_eq r hr hn]
  simp only [pure_bind, List.length_map, List.map_map]
  obtain ⟨n, hl⟩ : ∃ n, r.length = n + 1 := ⟨r.length - 1, by omega⟩
  refine bind_panic ?_
  rw [hl, List.range_succ_eq_map, List.foldlM_cons]
  refine bind_panic ?_
  show ∃ s', qfftCol64 true (r.map fun q => some [q]) 0 s = _
  unfold qfftCol64
  rw [hget 0 (by omega)]
  simp only [Option.join_some, unwrapO_some, pure_bind, List.length_map]
  refine bind_panic ?_
  have er : List.range' (0 + 1) (r.length - (0 + 1)) = List.range' 1 62 ++ 63 :: List.range' 64 (r.length - 64) := by
    rw [show r.length - (0 + 1) = 62 + (1 + (r.length - 64)) by omega, ← List.range'_append_1 (s := 0 + 1) (m := 62), ← List.range'_append_1 (m := 1)]
    rfl
  rw [er, List.foldlM_append]
  have e1 := foldlM_emits (qfftRow64 true 0) ([r[0]], (r.map fun q => (some [q] : Option Reg)).set 0 none)
    (fun j => [([r[0]], ⟨1, .unitary (.Rz (.piRational (angle64 (j - 0))))⟩)]) (List.range' 1 62) (by
      intro j hj
      rw [List.mem_range'_1] at hj
      refine qfftRow64_emits true 0 r[0] j _ (r[j]'(by omega)) ?_ (.inl (by omega))
      rw [List.getElem?_set_ne (by omega), hget j (by omega)])
  have e2 := e1 s
  show ∃ s', EStateM.bind _ _ s = _
  unfold EStateM.bind
  rw [e2]
  simp only
  rw [List.foldlM_cons]
  refine bind_panic (qfftRow64_panics r[0] _ (r[63]'(by omega)) ?_ _)
  rw [List.getElem?_set_ne (by omega), hget 63 (by omega)]

/-! ## masks -/

theorem negateBitmask64_eq {β : Type} [CliffordT β] (r : Reg) (mask : BitVec 64) : (negateBitmask64 r mask : M β Reg) = negateBitmask r mask.toNat := by
  unfold negateBitmask64 negateBitmask
  congr 1
  funext rs
  have key : ∀ (rs acc : List Reg) (m : BitVec 64) (k : List Reg → M β Reg),
      (do let p ← rs.foldlM (fun (acc : List Reg × BitVec 64) qubit => do
            let lowest := acc.2 &&& 1#64
            let qubit ← if lowest = 0#64 then Gate.not qubit else pure qubit
            pure (acc.1 ++ [qubit], acc.2 >>> 1)) (acc, m)
          k p.1) =
      (do let p ← rs.foldlM (fun (acc : List Reg × ℕ) qubit => do
            let lowest := acc.2 &&& 1
            let qubit ← if lowest = 0 then Gate.not qubit else pure qubit
            pure (acc.1 ++ [qubit], acc.2 >>> 1)) (acc, m.toNat)
          k p.1) := by
    intro rs
    induction rs with
    | nil => intro acc m k; simp
    | cons q rs ih =>
      intro acc m k
      have hz : (m &&& 1#64 = 0#64) ↔ (m.toNat &&& 1 = 0) := by
        rw [← BitVec.toNat_inj, BitVec.toNat_and]
        rfl
      rw [List.foldlM_cons, List.foldlM_cons]
      have step : ∀ q', _ := fun q' => ih (acc ++ [q']) (m >>> 1) k
      simp only [BitVec.toNat_ushiftRight] at step
      simp only [hz]
      by_cases h0 : m.toNat &&& 1 = 0
      · simp only [h0, if_true, bind_assoc, pure_bind]
        congr 1
        funext q'
        exact step q'
      · simp only [h0, if_false, bind_assoc, pure_bind]
        exact step q
  exact key rs [] mask fun p => do
    let m ← mergeRegisters p
    unwrapO m

end Verif
