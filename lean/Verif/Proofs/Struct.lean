import Verif.Spec.Struct
import Verif.Proofs.Dagger
import Verif.Proofs.CondGamma
import Verif.Proofs.CondAdd
import Verif.Proofs.Shift
import Verif.Proofs.Toffoli
import Verif.Proofs.Steady
import Verif.Proofs.Shift2
import Verif.Proofs.Runs
import Verif.Props.Gates
import Verif.Props.Matrices
import Verif.Props.Qfft

/-! # Structured programs: what they do -/

namespace Verif
open Classical Rooted

/-! ## maps that only look at their registers -/

/-- the values `φ` gives to the qubits of `Q` depend on theirs only, and it keeps the others -/
structure Local (Q : List ℕ) (φ : Asg → Asg) : Prop where
  keeps : ∀ x q, q ∉ Q → φ x q = x q
  same : ∀ x y : Asg, (∀ q ∈ Q, x q = y q) → ∀ q ∈ Q, φ x q = φ y q

/-- flipping qubits outside before and after makes no difference -/
def Blind (Q : List ℕ) (U : Asg → Wave) : Prop :=
  ∀ (c : Reg), (∀ q ∈ Q, q ∉ c) → ∀ m x, lift (fun y => ket (negMask c m y)) (U (negMask c m x)) = U x

theorem eachW_single (m : ℕ → ℕ → ℂ) (q : ℕ) (ψ : Wave) : eachW m [q] ψ = gateW [q] m ψ := rfl

/-! ## the maps of the library functions -/

theorem local_swap (a b : Reg) (hl : a.length = b.length) : Local (a ++ b) (swapMap a b) := by
  have hb : ∀ q ∈ a, b.getD (a.idxOf q) 0 ∈ b := fun q hq => by
    have := List.idxOf_lt_length_iff.mpr hq
    rw [List.getD_eq_getElem _ _ (by omega)]
    exact List.getElem_mem _
  have ha : ∀ q ∈ b, a.getD (b.idxOf q) 0 ∈ a := fun q hq => by
    have := List.idxOf_lt_length_iff.mpr hq
    rw [List.getD_eq_getElem _ _ (by omega)]
    exact List.getElem_mem _
  refine ⟨fun x q hq => ?_, fun x y h q hq => ?_⟩
  · unfold swapMap
    rw [if_neg fun h => hq (by simp [h]), if_neg fun h => hq (by simp [h])]
  · unfold swapMap
    by_cases h1 : q ∈ a
    · rw [if_pos h1, if_pos h1, h _ (List.mem_append_right _ (hb q h1))]
    · have h2 : q ∈ b := by simpa [h1] using hq
      rw [if_neg h1, if_neg h1, if_pos h2, if_pos h2, h _ (List.mem_append_left _ (ha q h2))]

theorem local_xor (a b : Reg) (hl : a.length = b.length) : Local (a ++ b) (xorMap a b) := by
  have ha : ∀ q ∈ b, a.getD (b.idxOf q) 0 ∈ a := fun q hq => by
    have := List.idxOf_lt_length_iff.mpr hq
    rw [List.getD_eq_getElem _ _ (by omega)]
    exact List.getElem_mem _
  refine ⟨fun x q hq => ?_, fun x y h q hq => ?_⟩
  · unfold xorMap
    rw [if_neg fun h => hq (by simp [h])]
  · unfold xorMap
    by_cases h2 : q ∈ b
    · rw [if_pos h2, if_pos h2, h q hq, h _ (List.mem_append_left _ (ha q h2))]
    · rw [if_neg h2, if_neg h2, h q hq]

theorem local_rotate (k : ℕ) (r : Reg) : Local r (rotate k r) := by
  refine ⟨fun x q hq => ?_, fun x y h q hq => ?_⟩
  · unfold rotate
    rw [if_neg hq]
  · unfold rotate
    rw [if_pos hq, if_pos hq]
    refine h _ ?_
    rw [List.getD_eq_getElem _ _ (Nat.mod_lt _ (List.length_pos_of_mem hq))]
    exact List.getElem_mem _

theorem local_update {Q : List ℕ} {d : ℕ} (hd : d ∈ Q) (v : Asg → Bool) (hv : ∀ x y : Asg, (∀ q ∈ Q, x q = y q) → v x = v y) :
    Local Q fun x => Function.update x d (v x) := by
  refine ⟨fun x q hq => Function.update_of_ne (by rintro rfl; exact hq hd) _ _, fun x y h q hq => ?_⟩
  by_cases e : q = d
  · subst e
    simp only [Function.update_self]
    exact hv x y h
  · rw [Function.update_of_ne e, Function.update_of_ne e, h q hq]

theorem local_negMask (r : Reg) (m : ℕ) : Local r (negMask r m) := by
  refine ⟨Maps.negMask_keeps r m, fun x y h q hq => ?_⟩
  unfold negMask
  rw [h q hq]

theorem Local.comp {Q : List ℕ} {φ ψ : Asg → Asg} (h : Local Q φ) (h' : Local Q ψ) : Local Q fun x => ψ (φ x) :=
  ⟨fun x q hq => by rw [h'.keeps _ q hq, h.keeps _ q hq], fun x y hxy => h'.same _ _ (h.same x y hxy)⟩

theorem Local.mono {Q Q' : List ℕ} {φ : Asg → Asg} (h : Local Q φ) (hq : ∀ q ∈ Q, q ∈ Q') : Local Q' φ :=
  ⟨fun x q hq' => h.keeps x q fun h => hq' (hq q h), fun x y hxy q hq' => by
    by_cases hm : q ∈ Q
    · exact h.same x y (fun q h => hxy q (hq q h)) q hm
    · rw [h.keeps x q hm, h.keeps y q hm, hxy q hq']⟩

theorem local_sum (c a b : ℕ) : Local [c, a, b] (sumMap c a b) :=
  local_update (Q := [c, a, b]) (d := b) (by simp) (fun x => xor (x a) (xor (x b) (x c))) fun x y h => by
      simp [h a (by simp), h b (by simp), h c (by simp)]

theorem local_carry (c a b d : ℕ) : Local [c, a, b, d] (carryMap c a b d) :=
  local_update (Q := [c, a, b, d]) (d := d) (by simp) (fun x => xor (x d) (maj (x c) (x a) (x b))) fun x y h => by
      simp [h a (by simp), h b (by simp), h c (by simp), h d (by simp)]

theorem local_add (c0 : ℕ) (ct a b : Reg) (ha : a.length = ct.length + 1) (hb : b.length = ct.length + 2) :
    Local [c0 :: ct, a, b].flatten (addMap (c0 :: ct) a b) ∧ Local [c0 :: ct, a, b].flatten (subMap (c0 :: ct) a b) := by
  induction ct generalizing c0 a b with
  | nil =>
    obtain ⟨a, rfl⟩ := List.length_eq_one_iff.mp ha
    obtain ⟨b, b', rfl⟩ := List.length_eq_two.mp hb
    have h1 := (local_carry c0 a b b').mono (Q' := [[c0], [a], [b, b']].flatten) (by simp)
    have h2 := (local_sum c0 a b).mono (Q' := [[c0], [a], [b, b']].flatten) (by simp)
    exact ⟨(h1.comp h2 :), (h2.comp h1 :)⟩
  | cons c' ct ih =>
    obtain ⟨a, as, rfl⟩ := List.exists_cons_of_length_eq_add_one ha
    obtain ⟨b, bs, rfl⟩ := List.exists_cons_of_length_eq_add_one hb
    obtain ⟨i1, i2⟩ := ih c' as bs (by simpa using ha) (by simpa using hb)
    have hq : ∀ q ∈ [c' :: ct, as, bs].flatten, q ∈ [c0 :: c' :: ct, a :: as, b :: bs].flatten := by
      intro q hq
      simp at hq ⊢
      tauto
    have h1 := (local_carry c0 a b c').mono (Q' := [c0 :: c' :: ct, a :: as, b :: bs].flatten) (by simp)
    have h2 := (local_sum c0 a b).mono (Q' := [c0 :: c' :: ct, a :: as, b :: bs].flatten) (by simp)
    exact ⟨((h1.comp (i1.mono hq)).comp (h1.comp h2) :), ((h2.comp h1).comp ((i2.mono hq).comp h1) :)⟩

theorem local_reverse (r : Reg) : Local r (reverseMap r) := by
  refine ⟨fun x q hq => ?_, fun x y h q hq => ?_⟩
  · unfold reverseMap
    rw [if_neg hq]
  · unfold reverseMap
    rw [if_pos hq, if_pos hq]
    refine h _ ?_
    have := List.length_pos_of_mem hq
    rw [List.getD_eq_getElem _ _ (by omega)]
    exact List.getElem_mem _

theorem revQ_eq (r : Reg) (hn : r.Nodup) (x : Asg) : revQ r x = reverseMap r x := by
  funext q
  unfold reverseMap
  by_cases hq : q ∈ r
  · have hi := List.idxOf_lt_length_iff.mpr hq
    have := revQ_get r hn x (r.idxOf q) hi
    rw [List.getElem_idxOf hi] at this
    rw [if_pos hq, this, List.getD_eq_getElem _ _ (by omega)]
  · rw [if_neg hq, revQ_not_mem r x q hq]

theorem swapR_eq (a b : Reg) (hl : a.length = b.length) (hn : (a ++ b).Nodup) (x : Asg) : swapR a b x = swapMap a b x := by
  funext q
  unfold swapMap
  by_cases h1 : q ∈ a
  · have hi := List.idxOf_lt_length_iff.mpr h1
    have := (swapR_get a b hl hn x (a.idxOf q) hi).1
    rw [List.getElem_idxOf hi] at this
    rw [if_pos h1, this, List.getD_eq_getElem _ _ (by omega)]
  · by_cases h2 : q ∈ b
    · have hi := List.idxOf_lt_length_iff.mpr h2
      have := (swapR_get a b hl hn x (b.idxOf q) (by omega)).2
      rw [List.getElem_idxOf hi] at this
      rw [if_neg h1, if_pos h2, this, List.getD_eq_getElem _ _ (by omega)]
    · rw [if_neg h1, if_neg h2, swapR_not_mem a b x q h1 h2]

theorem copyMap_eq (a b : Reg) (hl : a.length = b.length) (hn : (a ++ b).Nodup) (x : Asg) : copyMap a b x = xorMap a b x := by
  funext q
  unfold xorMap
  by_cases h2 : q ∈ b
  · have hi := List.idxOf_lt_length_iff.mpr h2
    have := copyMap_at a b hn hl x (b.idxOf q) hi
    rw [List.getD_eq_getElem _ _ hi, List.getElem_idxOf hi] at this
    rw [if_pos h2, this]
  · rw [if_neg h2, copyMap_keeps a b x q h2]

theorem flatten_two (a b : Reg) : [a, b].flatten = a ++ b := by simp

/-! ## library functions inside conditions -/

theorem moves_free {α : Type} {m : M LocalBuilder α} {a : α} {Q : List ℕ} {U : Asg → Wave} (hk : ∀ x, On {y | ∀ p, p ∉ Q → y p = x p} (U x))
    (hd : ∀ s L, Own s (Q ++ L) → Does rotAngle m s a (Q ++ L) U) : Moves rotAngle [] m a Q U where
  keeps := hk
  does s L _ ho := (hd s L ho).congrU fun x _ => by simp

theorem on_gate {Q r : List ℕ} (h : ∀ q ∈ r, q ∈ Q) (d : ℕ → ℕ → ℂ) {x : Asg} {ψ : Wave} (hψ : On {y | ∀ p, p ∉ Q → y p = x p} ψ) :
    On {y | ∀ p, p ∉ Q → y p = x p} (gateW r d ψ) := hψ.gate r d fun y hy c p hp => by
  rw [writeQ_not_mem _ _ _ _ fun hm => hp (h p hm)]
  exact hy p hp

theorem on_same (Q : List ℕ) (x : Asg) : On {y | ∀ p, p ∉ Q → y p = x p} (ket x) := On.ket fun _ _ => rfl

theorem on_each {Q : List ℕ} (d : ℕ → ℕ → ℂ) {r : List ℕ} (h : ∀ q ∈ r, q ∈ Q) {x : Asg} {ψ : Wave} (hψ : On {y | ∀ p, p ∉ Q → y p = x p} ψ) :
    On {y | ∀ p, p ∉ Q → y p = x p} (eachW d r ψ) := by
  induction r generalizing ψ with
  | nil => exact hψ
  | cons q r ih => exact ih (fun p hp => h p (by simp [hp])) (on_gate (r := [q]) (fun p hp => h p (by simp at hp; simp [hp])) d hψ)

theorem on_turns {Q : List ℕ} {r : List ℕ} (h : ∀ q ∈ r, q ∈ Q) {x : Asg} {ψ : Wave} (hψ : On {y | ∀ p, p ∉ Q → y p = x p} ψ) :
    On {y | ∀ p, p ∉ Q → y p = x p} (turnsW r ψ) := by
  induction r generalizing ψ with
  | nil => exact hψ
  | cons q r ih =>
    have hq : ∀ p ∈ [q], p ∈ Q := fun p hp => h p (by simp at hp; simp [hp])
    exact ih (fun p hp => h p (by simp [hp])) (on_gate hq _ (on_gate hq _ hψ))

theorem moves_named_free (g : Named) (r : Reg) (hr : r ≠ []) : Moves rotAngle [] (g.runOn r : M LocalBuilder _) r r (fun x => eachW g.mat r (ket x)) :=
  moves_free (fun x => on_each _ (fun _ h => h) (on_same r x)) fun s L ho => by
    have h := Props.C31_named rotAngle g s r L hr ho
    cases g <;> exact h

theorem moves_toffoli_free (c r : Reg) (hc : c ≠ []) (hr : r ≠ []) : Moves rotAngle [] (toffoli c r : M LocalBuilder _) (c, r) (c ++ r)
    (flipIf (if c.length = 1 then 1 else (-Complex.I) ^ (r.length - 1)) c r) :=
  moves_free (fun x => by
    unfold flipIf
    split
    · exact On.smul (On.ket (show flipAll r x ∈ {y : Asg | ∀ p, p ∉ c ++ r → y p = x p} from fun p hp => flipAll_not_mem _ _ _ fun h => hp (by simp [h]))) _
    · exact On.ket fun _ _ => rfl) fun s L ho => (toffoli_does rotAngle c r L s hc hr ho).congrU fun x _ => by
    unfold tofU tofPhase flipIf
    split_ifs <;> rfl

theorem moves_matrix (r : Reg) (hr : r ≠ []) (data : List ℂ) (hd : data.length = 4 ^ r.length) (hu : IsUnitary r.length (matOf r.length data)) :
    Moves rotAngle [] (applyVecMatrix r data : M LocalBuilder _) r r (fun x => gateW r (matOf r.length data) (ket x)) ∧
    Moves rotAngle [] (applyMatrix r data : M LocalBuilder _) r r (fun x => gateW r (matOf r.length data) (ket x)) :=
  ⟨moves_free (fun x => on_gate (fun _ h => h) _ (on_same r x)) fun s L ho => (Props.C64_does rotAngle s r L hr ho data hd hu).1,
    moves_free (fun x => on_gate (fun _ h => h) _ (on_same r x)) fun s L ho => (Props.C64_does rotAngle s r L hr ho data hd hu).2⟩

theorem moves_rot {f : M LocalBuilder Reg} {q : ℕ} {d : ℕ → ℕ → ℂ} (h : ∀ s L, Own s (q :: L) → Does rotAngle f s [q] (q :: L) (fun x => gateW [q] d (ket x))) :
    Moves rotAngle [] f [q] [q] (fun x => gateW [q] d (ket x)) :=
  moves_free (fun x => on_gate (fun _ h => h) _ (on_same _ x)) h

theorem qfftCol_gates (q m : ℕ) (ψ : Wave) :
    runW rotAngle (qfftColSeg q m) ψ = gateW [q] (Named.mat .h) (gateW [q] (rzMat (1 - 1 / 2 ^ m)) ψ) := by
  have : runW rotAngle (qfftColSeg q m) = gateW [q] (Named.mat .h) ∘ₗ gateW [q] (rzMat (1 - 1 / 2 ^ m)) := wave_ext fun x => by
    unfold qfftColSeg
    rw [runW_append, rzs_ket, LinearMap.comp_apply, rz_ket, Props.qfftAngle_rot, map_smul, map_smul]
    rfl
  rw [this]
  rfl

theorem qfftCols_turns (r : Reg) (ψ : Wave) : runW rotAngle (qfftColsSeg r) ψ = turnsW r ψ := by
  induction r generalizing ψ with
  | nil => rfl
  | cons q r ih => rw [qfftColsSeg, runW_append, qfftCol_gates, ih]; rfl

theorem moves_qfft (r : Reg) (hr : r ≠ []) (hn : r.Nodup) : Moves rotAngle [] (Verif.qfft r : M LocalBuilder _) r r
    (fun x => lift (fun y => ket (reverseMap r y)) (turnsW r (ket x))) :=
  moves_free (fun x => (on_turns (fun _ h => h) (on_same r x)).map _ fun y hy => by
    rw [lift_ket]
    exact On.ket fun p hp => by rw [(local_reverse r).keeps y p hp]; exact hy p hp) fun s L ho =>
    (Props.qfft_does rotAngle s r L hr ho).congrU fun x _ => by
      rw [runW_append, qfftCols_turns]
      have : runW rotAngle (qfftSwapsSeg r) = lift fun y => ket (reverseMap r y) := wave_ext fun z => by
        rw [lift_ket, ← revQ_eq r hn]
        exact swap_ket rotAngle _ _ (by simp) (halves_nodup r hn) z
      rw [this]

theorem moves_cnot {β : Type} [Conditionable β] [Rooted β] [Sim β] (cs : List Reg) (c r : Reg) (hc : c.length = 1) (hr : r ≠ []) :
    Moves rotAngle cs (cnot c r : M β _) (c, r) (c ++ r) (flipIf 1 c r) := by
  obtain ⟨c, rfl⟩ := List.length_eq_one_iff.mp hc
  exact (Maps.cnot cs c r hr).moves.congr fun x => (flipIf_one c r x).symm

theorem nb_zero_or (k : ℕ) {cs : List Reg} (hk : cs.length = k) : (k = 0 ∧ cs = []) ∨ (k ≠ 0 ∧ cs ≠ []) := by
  cases cs with
  | nil => left; exact ⟨hk.symm, rfl⟩
  | cons c cs => right; exact ⟨by rw [← hk]; simp, by simp⟩

/-- the functions that are only called outside conditions -/
theorem Method.moves_outside (m : Method) (rs : List Reg) (h : m.Takes false rs) (hn : rs.flatten.Nodup) (ho : ¬ m.Takes true rs) :
    Moves rotAngle [] (m.run rs : M LocalBuilder _) rs rs.flatten (m.wave false rs) := by
  have hang := rotAngle_neg'
  have one : ∀ {f : M LocalBuilder Reg} {r : Reg} {U : Asg → Wave}, Moves rotAngle [] f r r U →
      Moves rotAngle [] (do let r ← f; pure [r]) [r] [r].flatten U := fun {f r U} h => by
    have := h.map (f := fun r => [r]) rfl
    rw [List.flatten_singleton]
    exact this
  unfold Method.Takes at h
  split at h
  · rename_i g r
    exact one (moves_named_free g r h.1)
  · exact absurd h ho
  · exact absurd h ho
  · rename_i c r
    have := ((moves_toffoli_free c r h.1 h.2.1).congr fun x => (if_neg (by simp) : (if false = true ∧ c.length = 2 then turnIf c (r.headD 0) x else
      flipIf (if c.length = 1 then 1 else (-Complex.I) ^ (r.length - 1)) c r x) = _).symm).map (f := fun p : Reg × Reg => [p.1, p.2]) rfl
    rw [flatten_two]
    exact this
  · exact absurd h ho
  · exact absurd h ho
  · exact absurd h ho
  · exact absurd h ho
  · exact absurd h ho
  · rename_i n data r
    obtain ⟨-, h1, rfl, h2, h3⟩ := h
    exact (one (moves_matrix r h1 data h2 h3).1).cast (by simp [Method.run]) rfl
  · rename_i n data r
    obtain ⟨-, h1, rfl, h2, h3⟩ := h
    exact (one (moves_matrix r h1 data h2 h3).2).cast (by simp [Method.run]) rfl
  · rename_i θ r
    obtain ⟨q, rfl⟩ := List.length_eq_one_iff.mp h.2
    exact one (moves_rot fun s L ho => (Props.C34_one_qubit_partial s q L θ 0 1 ho (by simp)).1)
  · rename_i θ r
    obtain ⟨q, rfl⟩ := List.length_eq_one_iff.mp h.2
    exact one (moves_rot fun s L ho => (Props.C34_one_qubit_partial s q L θ 0 1 ho (by simp)).2.1)
  · rename_i θ r
    obtain ⟨q, rfl⟩ := List.length_eq_one_iff.mp h.2
    exact one (moves_rot fun s L ho => (Props.C34_one_qubit_partial s q L θ 0 1 ho (by simp)).2.2.1)
  · rename_i t r
    obtain ⟨q, rfl⟩ := List.length_eq_one_iff.mp h.2
    exact one (moves_rot fun s L ho => (Props.C34_one_qubit_partial s q L 0 t 1 ho (by simp)).2.2.2.1)
  · rename_i t r
    obtain ⟨q, rfl⟩ := List.length_eq_one_iff.mp h.2
    exact one (moves_rot fun s L ho => (Props.C34_one_qubit_partial s q L 0 t 1 ho (by simp)).2.2.2.2.1)
  · rename_i t r
    obtain ⟨q, rfl⟩ := List.length_eq_one_iff.mp h.2
    exact one (moves_rot fun s L ho => (Props.C34_one_qubit_partial s q L 0 t 1 ho (by simp)).2.2.2.2.2.1)
  · rename_i m r
    obtain ⟨q, rfl⟩ := List.length_eq_one_iff.mp h.2.1
    exact one (moves_rot fun s L ho => (Props.C34_one_qubit_partial s q L 0 0 m ho h.2.2).2.2.2.2.2.2.1)
  · rename_i m r
    obtain ⟨q, rfl⟩ := List.length_eq_one_iff.mp h.2.1
    exact one (moves_rot fun s L ho => (Props.C34_one_qubit_partial s q L 0 0 m ho h.2.2).2.2.2.2.2.2.2.1)
  · rename_i m r
    obtain ⟨q, rfl⟩ := List.length_eq_one_iff.mp h.2.1
    exact one (moves_rot fun s L ho => (Props.C34_one_qubit_partial s q L 0 0 m ho h.2.2).2.2.2.2.2.2.2.2)
  · obtain ⟨c, a, b, d, rfl⟩ := four_ones h.2
    exact (Maps.carryInv hang c a b d).moves
  · rename_i c a b
    obtain ⟨c0, ct, rfl⟩ := cons_of_ne h.2.1
    exact (Maps.add hang c0 ct a b (by simpa using h.2.2.1) (by simpa using h.2.2.2)).moves
  · rename_i c a b
    obtain ⟨c0, ct, rfl⟩ := cons_of_ne h.2.1
    exact (Maps.addInv hang c0 ct a b (by simpa using h.2.2.1) (by simpa using h.2.2.2)).moves
  · rename_i r
    have := (Maps.lshift (ang := rotAngle) hang r h.2).moves
    rw [List.flatten_singleton]
    exact this
  · rename_i a b
    have := ((Maps.copyInv (ang := rotAngle) hang a b h.2.1 h.2.2).moves).congr fun x => congrArg ket (copyMap_eq a b h.2.2 (by simpa using hn) x)
    rw [flatten_two]
    exact this
  · rename_i r
    exact one (moves_qfft r h.2 (by simpa using hn))
  · exact h.elim

/-- the functions that may be called inside conditions -/
theorem Method.moves_both {k : ℕ} {cs : List Reg} (hk : cs.length = k) (m : Method) (rs : List Reg) (h : m.Takes true rs) (hn : rs.flatten.Nodup) :
    Moves rotAngle cs (m.run rs : M (NB k) _) rs rs.flatten (m.wave (decide (k ≠ 0)) rs) := by
  unfold Method.Takes at h
  split at h
  · rename_i g r
    obtain ⟨q, rfl⟩ := List.length_eq_one_iff.mp (h.2 rfl)
    rcases nb_zero_or k hk with ⟨rfl, rfl⟩ | ⟨h0, hc⟩
    · exact (moves_named_free g [q] (by simp)).map (f := fun r => [r]) rfl
    · have e : decide (k ≠ 0) = true := by simp [h0]
      rw [e]
      exact (Moves.named (β := NB k) hc g q).map (f := fun r => [r]) rfl
  · rename_i c r
    have := (moves_cnot (β := NB k) cs c r h.1 h.2).map (f := fun p : Reg × Reg => [p.1, p.2]) rfl
    rw [flatten_two]
    exact this
  · rename_i a b
    have h1 : Moves rotAngle cs (Verif.swap a b : M (NB k) _) (a, b) (a ++ b) (fun x => ket (swapMap a b x)) := by
      refine ⟨fun x => On.ket fun q hq => (local_swap a b h.2).keeps x q hq, fun s L hs ho => (sim_swap hs h.1 h.2 ho).congrU fun x _ => ?_⟩
      rw [swapR_eq a b h.2 (by simpa using hn)]
      split <;> rfl
    have := h1.map (f := fun p : Reg × Reg => [p.1, p.2]) rfl
    rw [flatten_two]
    exact this
  · rename_i c r
    have key : Moves rotAngle cs (Verif.toffoli c r : M (NB k) _) (c, r) (c ++ r)
        fun x => if decide (k ≠ 0) = true ∧ c.length = 2 then turnIf c (r.headD 0) x else flipIf (if c.length = 1 then 1 else (-Complex.I) ^ (r.length - 1)) c r x := by
      rcases nb_zero_or k hk with ⟨rfl, rfl⟩ | ⟨h0, hc⟩
      · exact (moves_toffoli_free c r h.1 h.2.1).congr fun x => (if_neg (fun h => by simp at h)).symm
      rcases h.2.2 rfl with h' | h'
      · obtain ⟨c, rfl⟩ := List.length_eq_one_iff.mp h'
        exact (moves_cnot (β := NB k) cs [c] r rfl h.2.1).congr fun x => by rw [if_neg (by simp)]; rfl
      · obtain ⟨q, rfl⟩ := List.length_eq_one_iff.mp h'.2
        obtain ⟨a, b, rfl⟩ := List.length_eq_two.mp h'.1
        exact (Moves.toffoli_two (β := NB k) hc a b q).congr fun x => by
            rw [if_pos (c := decide (k ≠ 0) = true ∧ [a, b].length = 2) ⟨by simp [h0], rfl⟩, ← turnIf_eq]; rfl
    have := key.map (f := fun p : Reg × Reg => [p.1, p.2]) rfl
    rw [flatten_two]
    exact this
  · rename_i m r
    have := (Maps.negateBitmask (ang := rotAngle) (β := NB k) cs r h m).moves.map (f := fun r => [r]) rfl
    rw [List.flatten_singleton]
    exact this
  · obtain ⟨c, a, b, rfl⟩ := three_ones h
    exact (Maps.sum (β := NB k) cs c a b).moves
  · obtain ⟨c, a, b, d, rfl⟩ := four_ones h
    exact (Maps.carry (β := NB k) cs c a b d).moves
  · rename_i a b
    have := ((Maps.copy (ang := rotAngle) (β := NB k) cs a b h.1 h.2).moves).congr fun x => congrArg ket (copyMap_eq a b h.2 (by simpa using hn) x)
    rw [flatten_two]
    exact this
  · rename_i r
    have := (Maps.rshift (ang := rotAngle) (β := NB k) cs r h).moves
    rw [List.flatten_singleton]
    exact this
  all_goals first | exact h.elim | exact absurd h.1 (by simp)

theorem Method.moves {k : ℕ} {cs : List Reg} (hk : cs.length = k) (m : Method) (rs : List Reg) (h : m.Takes (decide (k ≠ 0)) rs) (hn : rs.flatten.Nodup) :
    Moves rotAngle cs (m.run rs : M (NB k) _) rs rs.flatten (m.wave (decide (k ≠ 0)) rs) := by
  by_cases hi : m.Takes true rs
  · exact m.moves_both hk rs hi hn
  · rcases nb_zero_or k hk with ⟨rfl, rfl⟩ | ⟨h0, -⟩
    · exact m.moves_outside rs h hn hi
    · rw [show decide (k ≠ 0) = true by simp [h0]] at h
      exact absurd h hi

/-! ## programs -/

theorem lift_eq (U : Asg → Wave) : Finsupp.linearCombination ℂ U = lift U := rfl

theorem holds_congr {m : Option ℕ} {c : Reg} {x y : Asg} (h : ∀ q ∈ c, x q = y q) : Holds m c x ↔ Holds m c y := by
  unfold Holds
  cases m with
  | none => exact forall₂_congr fun q hq => by rw [h q hq]
  | some m => simp only; rw [valQ_congr c x y h]

theorem control_disjoint {rs : List Reg} (hn : rs.flatten.Nodup) {g : List Sel} {gs : List (List Sel)} (hv : ValidGroups rs (g :: gs)) :
    (gs.map (groupReg rs)).flatten.Nodup ∧ (∀ q ∈ (gs.map (groupReg rs)).flatten, q ∈ rs.flatten) ∧ (groupReg rs g).Nodup ∧
      groupReg rs g ≠ [] ∧ (∀ q ∈ groupReg rs g, q ∈ rs.flatten) ∧ ∀ q ∈ (gs.map (groupReg rs)).flatten, q ∉ groupReg rs g := by
  obtain ⟨g1, g2⟩ := groups_nodup rs hn _ hv
  rw [List.map_cons, List.flatten_cons] at g1 g2
  obtain ⟨h1, h2, h3⟩ := List.nodup_append.mp g1
  refine ⟨h2, fun q hq => g2 q (List.mem_append_right _ hq), h1, ?_, fun q hq => g2 q (List.mem_append_left _ hq), fun q hq hq' => h3 q hq' q hq rfl⟩
  unfold groupReg
  simpa using hv.ne g (by simp)

theorem Prog.wave_blind (p : Prog) (inside : Bool) (rs : List Reg) (h : p.Takes inside rs) : Blind rs.flatten (p.wave inside rs) := fun c hc m x => by
  let f : Asg := fun q => decide (q ∈ c ∧ m.testBit (c.idxOf q) = false)
  have e : ∀ x, mv 1 f x = negMask c m x := fun x => by
    funext q
    unfold mv negMask
    rw [show (Equiv.symm (1 : Equiv.Perm ℕ)) q = q from rfl]
    by_cases hq : q ∈ c ∧ m.testBit (c.idxOf q) = false
    · rw [if_pos hq, show f q = true from decide_eq_true hq]; simp
    · rw [if_neg hq, show f q = false from decide_eq_false hq]; simp
  have e' : mvW 1 f = lift fun y => ket (negMask c m y) := wave_ext fun y => by rw [mvW_ket, lift_ket, e]
  have hs := p.wave_same (σ := 1) (f := f) inside rs h (fun q hq => decide_eq_false fun h => hc q hq h.1) (negMask c m x)
  rw [show rs.map (List.map (1 : Equiv.Perm ℕ)) = rs by simp [show (List.map id : Reg → Reg) = id from funext List.map_id], e, e', Maps.negMask_negMask] at hs
  exact hs.symm

/-- a program acts on any registers as on those of a new builder -/
theorem Prog.wave_move (p : Prog) (inside : Bool) (rs : List Reg) (h : p.Takes inside rs) (hn : rs.flatten.Nodup)
    (hk : ∀ x, On {y | ∀ q, q ∉ (ranges 0 (rs.map List.length)).flatten → y q = x q} (p.wave inside (ranges 0 (rs.map List.length)) x)) (x : Asg) :
    p.wave inside rs x = moveW rs.flatten (p.wave inside (ranges 0 (rs.map List.length))) x :=
  Verif.wave_move (W := p.wave inside) hn (fun σ f hf => p.wave_same inside _ (p.takes_congr _ _ _ (ranges_map_length _ _) h) hf) (fun z hz =>
    (hk z).mono fun y hy i hi => by
      rw [hy i (by rw [ranges_flatten, List.mem_range'_1, ← List.length_flatten]; omega)]
      exact hz i hi) x

/-- inverting a function outside conditions -/
theorem moves_inv (p : Prog) (rs : List Reg) (hne : rs ≠ []) (hr : ∀ r ∈ rs, r ≠ []) (hn : rs.flatten.Nodup)
    (hp : p.Takes false (ranges 0 (rs.map List.length))) (ht : Touches (rs.flatten.length - 1) (p.wave false (ranges 0 (rs.map List.length))))
    (h : Moves rotAngle [] (p.run (ranges 0 (rs.map List.length)) : M LocalBuilder _) (ranges 0 (rs.map List.length)) (ranges 0 (rs.map List.length)).flatten
      (p.wave false (ranges 0 (rs.map List.length)))) :
    Moves rotAngle [] (inverter rs (fun rs => p.run rs) : M LocalBuilder _) rs rs.flatten (daggerW rs.flatten (p.wave false rs)) ∧
      Moves rotAngle [] (invertFn (fun rs => p.run rs) rs : M LocalBuilder _) rs rs.flatten (daggerW rs.flatten (p.wave false rs)) := by
  have hfl : (ranges 0 (rs.map List.length)).flatten = List.range rs.flatten.length := by
    rw [ranges_flatten, List.range_eq_range', List.length_flatten]
  have hmv := p.wave_move false rs (takes_ranges hp) hn h.keeps
  have hmv0 := p.wave_move false _ hp (by rw [hfl]; exact List.nodup_range) (by rw [ranges_map_length]; exact h.keeps)
  rw [ranges_map_length, hfl] at hmv0
  have hpos : 0 < rs.flatten.length := by
    cases rs with
    | nil => exact absurd rfl hne
    | cons r rs =>
      have := List.length_pos_iff.mpr (hr r (by simp))
      simp
      omega
  have hk : ∀ z ∈ Low rs.flatten.length, On (Low rs.flatten.length) (p.wave false (ranges 0 (rs.map List.length)) z) := fun z hz =>
    (h.keeps z).mono fun y hy i hi => by
      rw [hy i (by rw [hfl, List.mem_range]; omega)]
      exact hz i hi
  have hf := (h.does ⟨[], rs.flatten.length, [], 0⟩ [] rfl (by
    rw [hfl, List.append_nil]; exact fresh_own _)).congrU (U' := p.wave false (ranges 0 (rs.map List.length))) fun x _ => by simp
  have e : daggerW rs.flatten (p.wave false rs) = moveW rs.flatten (daggerW (List.range rs.flatten.length) (p.wave false (ranges 0 (rs.map List.length)))) := by
    funext x
    rw [← dagger_move hn hk, ← (funext hmv : p.wave false rs = _)]
  have hi := fun (s : LocalBuilder) (L : List ℕ) (ho : Own s (rs.flatten ++ L)) =>
    inverter_does rotAngle_neg' (f := fun rs => p.run rs) hne hr hf (fun b hb => by
      obtain ⟨b', f1, -, -, f4⟩ := hf
      obtain ⟨seg, g1, g2, g3⟩ := f4.seg
      have : b' = b := by
        rw [f1] at hb
        exact (EStateM.Result.ok.inj hb).2
      subst this
      obtain ⟨m, m1, m2⟩ := maxIndex_of_touched (touches_last hpos (seg := seg) (fun z hz => (g3 z ((fresh_clean _ z).mpr hz)).1) hmv0 ht)
      exact ⟨m, by rw [show b'.pipeline = seg from g1]; exact m1, by omega⟩) (daggerW (List.range rs.flatten.length) (p.wave false (ranges 0 (rs.map List.length))))
      (fun z hz => ⟨(dagger_spec hf hk hz).1, (dagger_spec hf hk hz).2.1⟩) ho
  rw [e]
  exact ⟨moves_free (fun x => move_on _ _ x) fun s L ho => (hi s L ho).1, moves_free (fun x => move_on _ _ x) fun s L ho => (hi s L ho).2⟩

mutual
theorem Prog.moves : (p : Prog) → (k : ℕ) → (cs : List Reg) → cs.length = k → (rs : List Reg) → p.Takes (decide (k ≠ 0)) rs → rs.flatten.Nodup →
    Moves rotAngle cs (p.run rs : M (NB k) _) rs rs.flatten (p.wave (decide (k ≠ 0)) rs)
  | .call m, k, cs, hk, rs, h, hn => by
    simp only [Prog.Takes] at h
    refine ((m.moves hk rs h hn).cast ?_ rfl).congr fun x => by simp only [Prog.wave]
    simp only [Prog.run]
  | .seq p q, k, cs, hk, rs, h, hn => by
    simp only [Prog.Takes] at h
    refine (((p.moves k cs hk rs h.1 hn).bind (f := fun rs => q.run rs) (q.moves k cs hk rs h.2 hn)).cast ?_ rfl).congr fun x => by
      simp only [Prog.wave, lift_eq]
    simp only [Prog.run]
  | .cond p, k, cs, hk, cr :: rs, h, hn => by
    simp only [Prog.Takes] at h
    rw [List.flatten_cons] at hn ⊢
    have h1 : Moves rotAngle (cr :: cs) (p.run rs : M (Conditioned (NB k)) _) rs rs.flatten (p.wave true rs) :=
      p.moves (k + 1) (cr :: cs) (by simp [hk]) rs h.2 (List.nodup_append.mp hn).2.1
    refine (((h1.conditioned h.1).map (f := fun p : List Reg × Reg => p.2 :: p.1) rfl).cast ?_ rfl).congr fun x => by simp only [Prog.wave]
    simp only [Prog.run]
  | .cond p, _, _, _, [], h, _ => by simp [Prog.Takes] at h
  | .prog ls, k, cs, hk, rs, h, hn => by
    simp only [Prog.Takes] at h
    refine ((Moves.program_nodup h.1 hn (ls.moves k cs hk rs h.2 hn)).cast ?_ rfl).congr fun x => by simp only [Prog.wave]
    simp only [Prog.run]
  | .sized F, k, cs, hk, rs, h, hn => by
    simp only [Prog.Takes] at h
    refine (((F (rs.map List.length)).moves k cs hk rs h hn).cast ?_ rfl).congr fun x => by simp only [Prog.wave]
    simp only [Prog.run]
  | .inv attr p, k, cs, hk, rs, h, hn => by
    simp only [Prog.Takes] at h
    obtain ⟨h0, h1, h2, h3, h4⟩ := h
    rcases nb_zero_or k hk with ⟨rfl, rfl⟩ | ⟨hne, -⟩
    · have hfl : (ranges 0 (rs.map List.length)).flatten.Nodup := by rw [ranges_flatten]; exact List.nodup_range'
      have := moves_inv p rs h1 h2 hn h3 h4 (p.moves 0 [] rfl _ h3 hfl)
      cases attr with
      | false => exact (this.1.cast (by simp [Prog.run]; rfl) rfl).congr fun x => by simp [Prog.wave]
      | true => exact (this.2.cast (by simp [Prog.run]; rfl) rfl).congr fun x => by simp [Prog.wave]
    · simp [hne] at h0

theorem Lines.moves : (ls : Lines) → (k : ℕ) → (cs : List Reg) → cs.length = k → (rs : List Reg) → ls.Takes (decide (k ≠ 0)) rs → rs.flatten.Nodup →
    Moves rotAngle cs (ls.lines.foldlM runLine (full rs) : M (NB k) _) (full rs) rs.flatten (ls.wave (decide (k ≠ 0)) rs)
  | .nil, k, cs, hk, rs, _, _ => by
    refine ((Moves.lines_nil (β := NB k) (ang := rotAngle) (cs := cs) (rs := rs)).cast ?_ rfl).congr fun x => by simp only [Lines.wave]
    simp only [Lines.lines]
  | .plain p gs ls, k, cs, hk, rs, h, hn => by
    simp only [Lines.Takes] at h
    obtain ⟨g1, g2⟩ := groups_nodup rs hn _ h.1
    refine ((Moves.lines_plain (β := NB k) (f := fun rs => p.run rs) hn h.1 rfl (p.moves k cs hk _ h.2.1 g1) (ls.moves k cs hk rs h.2.2 hn)).cast ?_ rfl).congr
      fun x => by simp only [Lines.wave, lift_eq]
    simp only [Lines.lines]
  | .control m p g gs ls, k, cs, hk, rs, h, hn => by
    simp only [Lines.Takes] at h
    obtain ⟨g1, g2, g3, g4, g5, g6⟩ := control_disjoint hn h.1
    have h1 : Moves rotAngle (groupReg rs g :: cs) (p.run (gs.map (groupReg rs)) : M (Conditioned (NB k)) _) (gs.map (groupReg rs))
        (gs.map (groupReg rs)).flatten (p.wave true (gs.map (groupReg rs))) := p.moves (k + 1) (groupReg rs g :: cs) (by simp [hk]) _ h.2.1 g1
    have h2 := Moves.control_holds (β := NB k) (f := fun rs => p.run rs) m rfl rfl g4 g3 (fun m x => p.wave_blind true _ h.2.1 _ g6 m x) h1
    refine ((Moves.lines_cons (β := NB k) (l := .control m (fun rs => p.run rs) (g :: gs)) hn h.1 h2 rfl (ls.moves k cs hk rs h.2.2 hn)).cast ?_ rfl).congr
      fun x => by simp only [Lines.wave, lift_eq]
    simp only [Lines.lines]
end

/-! ## programs that do the same inside and outside conditions -/

theorem Named.condMat_alike {g : Named} (hy : g ≠ .y) (hh : g ≠ .h) : g.condMat = g.mat := by
  cases g <;> first | rfl | exact absurd rfl hy | exact absurd rfl hh

theorem Method.wave_alike (m : Method) (h : m.Alike) (i j : Bool) : m.wave i = m.wave j := by
  funext rs x
  unfold Method.wave
  split <;> try rfl
  · rw [Named.condMat_alike h.1 h.2, ite_self, ite_self]
  · exact h.elim

mutual
theorem Prog.wave_alike : (p : Prog) → p.Alike → (i j : Bool) → p.wave i = p.wave j
  | .call m, h, i, j => by
    simp only [Prog.Alike] at h
    funext rs x
    simp only [Prog.wave, m.wave_alike h i j]
  | .seq p q, h, i, j => by
    simp only [Prog.Alike] at h
    funext rs x
    simp only [Prog.wave, p.wave_alike h.1 i j, q.wave_alike h.2 i j]
  | .cond p, _, i, j => by
    funext rs x
    cases rs <;> simp only [Prog.wave]
  | .prog ls, h, i, j => by
    simp only [Prog.Alike] at h
    funext rs x
    simp only [Prog.wave, ls.wave_alike h i j]
  | .sized F, h, i, j => by
    simp only [Prog.Alike] at h
    funext rs x
    simp only [Prog.wave, (F _).wave_alike (h _) i j]
  | .inv _ p, h, i, j => by
    simp only [Prog.Alike] at h
    funext rs x
    simp only [Prog.wave, p.wave_alike h i j]

theorem Lines.wave_alike : (ls : Lines) → ls.Alike → (i j : Bool) → ls.wave i = ls.wave j
  | .nil, _, i, j => by
    funext rs x
    simp only [Lines.wave]
  | .plain p gs ls, h, i, j => by
    simp only [Lines.Alike] at h
    funext rs x
    simp only [Lines.wave, p.wave_alike h.1 i j, ls.wave_alike h.2 i j]
  | .control m p g gs ls, h, i, j => by
    simp only [Lines.Alike] at h
    funext rs x
    simp only [Lines.wave, ls.wave_alike h i j]
end

end Verif
