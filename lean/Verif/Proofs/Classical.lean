import Verif.Proofs.Program2
import Verif.Proofs.Nest

/-! # Methods mapping basis states to basis states -/

namespace Verif
open Classical RegOps CircuitBuilder Rooted

variable {ang : Rot → ℝ} {β : Type} [Conditionable β] [Rooted β] [Sim β] {α γ : Type}

/-- in every builder with conditions `cs`, `m` returns `a` and maps the basis state `x` to `φ x` if the conditions hold,
using the qubits `Q` only -/
structure Maps (ang : Rot → ℝ) (cs : List Reg) (m : M β α) (a : α) (Q : List ℕ) (φ : Asg → Asg) : Prop where
  keeps : ∀ x q, q ∉ Q → φ x q = x q
  does : ∀ (s : β) (L : List ℕ), ctl s = some cs → Own (root s) (cs.flatten ++ Q ++ L) →
    Does ang m s a (cs.flatten ++ Q ++ L) (fun x => ket (if ∀ c ∈ cs.flatten, x c = true then φ x else x))

namespace Maps
variable {cs : List Reg} {m : M β α} {a : α} {Q : List ℕ} {φ : Asg → Asg}

theorem congr (h : Maps ang cs m a Q φ) {ψ : Asg → Asg} (he : ∀ x, φ x = ψ x) : Maps ang cs m a Q ψ := by
  rw [← (funext he : φ = ψ)]; exact h

theorem cast (h : Maps ang cs m a Q φ) {m' : M β α} {a' : α} (hm : m' = m) (ha : a' = a) : Maps ang cs m' a' Q φ := by
  rw [hm, ha]; exact h

theorem pure (a : α) : Maps ang cs (Pure.pure a : M β α) a Q id where
  keeps _ _ _ := rfl
  does s L _ ho := (Does.pure ho a).congrU fun x _ => by simp

/-- only qubits in use matter -/
theorem mono (h : Maps ang cs m a Q φ) {Q' : List ℕ} (hn : Q.Nodup) (hq : ∀ q ∈ Q, q ∈ Q') : Maps ang cs m a Q' φ where
  keeps x q hq' := h.keeps x q fun hc => hq' (hq q hc)
  does s L hs ho := by
    obtain ⟨R, hR⟩ := own_front Q hn hq ho
    exact Does.congr (U := fun x => ket (if ∀ c ∈ cs.flatten, x c = true then φ x else x)) (h.does s R hs (ho.perm hR)) rfl hR.symm fun x _ => rfl

/-- if `Q` has repetitions there is nothing to show -/
theorem of_nodup (hk : ∀ x q, q ∉ Q → φ x q = x q) (h : Q.Nodup → Maps ang cs m a Q φ) : Maps ang cs m a Q φ where
  keeps := hk
  does s L hs ho := (h (List.nodup_append.mp (List.nodup_append.mp ho.left).1).2.1).does s L hs ho

theorem cond_iff {s : β} {L : List ℕ} (ho : Own (root s) (cs.flatten ++ Q ++ L)) (hk : ∀ x q, q ∉ Q → φ x q = x q) (x : Asg) :
    (∀ c ∈ cs.flatten, φ x c = true) ↔ ∀ c ∈ cs.flatten, x c = true := by
  have := disj cs.flatten Q L (root s) ho
  exact forall₂_congr fun c hc => by rw [hk x c (this c hc)]

theorem bind (h : Maps ang cs m a Q φ) {f : α → M β γ} {c : γ} {ψ : Asg → Asg} (h' : Maps ang cs (f a) c Q ψ) :
    Maps ang cs (m >>= f) c Q (fun x => ψ (φ x)) where
  keeps x q hq := by rw [h'.keeps _ q hq, h.keeps x q hq]
  does s L hs ho := by
    refine (Does.bind (h.does s L hs ho) fun s' hs' ho' => h'.does s' L (hs'.trans hs) ho').congrU fun x _ => ?_
    rw [lift_ket]
    by_cases hx : ∀ c ∈ cs.flatten, x c = true
    · rw [if_pos hx, if_pos ((cond_iff ho h.keeps x).mpr hx), if_pos hx]
    · rw [if_neg hx, if_neg hx, if_neg hx]

theorem map (h : Maps ang cs m a Q φ) {f : α → γ} {c : γ} (hf : f a = c) : Maps ang cs (m >>= fun a => Pure.pure (f a)) c Q φ :=
  (h.bind (f := fun a => Pure.pure (f a)) (by rw [hf]; exact Maps.pure c)).congr fun _ => rfl

/-- one more condition -/
theorem conditioned {cr : Reg} (hc : cr ≠ []) {m : M (Conditioned β) α} (h : Maps ang (cr :: cs) m a Q φ) :
    Maps ang cs (Conditioned.conditioned cr m) (a, cr) (cr ++ Q) (fun x => if ∀ c ∈ cr, x c = true then φ x else x) where
  keeps x q hq := by
    rw [List.mem_append, not_or] at hq
    split
    · exact h.keeps x q hq.2
    · rfl
  does s L hs ho := by
    have hp : (cs.flatten ++ (cr ++ Q) ++ L).Perm ((cr :: cs).flatten ++ Q ++ L) := by
      rw [List.flatten_cons]
      simp only [← List.append_assoc]
      exact (List.perm_append_comm.append_right Q).append_right L
    have h1 := h.does ⟨s, some cr⟩ L (conditioned_ctl hs hc) (ho.perm hp)
    refine Does.congr (U := fun x => ket (if ∀ c ∈ (cr :: cs).flatten, x c = true then φ x else x))
      (Does.conditioned hs hc h1) rfl hp.symm fun x _ => ?_
    congr 1
    have hiff : (∀ c ∈ (cr :: cs).flatten, x c = true) ↔ (∀ c ∈ cr, x c = true) ∧ ∀ c ∈ cs.flatten, x c = true := by
      rw [List.flatten_cons]
      constructor
      · intro h; exact ⟨fun c hc => h c (by simp [hc]), fun c hc => h c (List.mem_append_right _ hc)⟩
      · rintro ⟨h1, h2⟩ c hc
        rcases List.mem_append.mp hc with hc | hc
        · exact h1 c hc
        · exact h2 c hc
    by_cases h1 : ∀ c ∈ cr, x c = true
    · by_cases h2 : ∀ c ∈ cs.flatten, x c = true
      · rw [if_pos (hiff.mpr ⟨h1, h2⟩), if_pos h2, if_pos h1]
      · rw [if_neg fun h => h2 (hiff.mp h).2, if_neg h2]
    · rw [if_neg fun h => h1 (hiff.mp h).1]
      simp only [if_neg h1, ite_self]

theorem x (cs : List Reg) (q : ℕ) : Maps ang cs (Gate.x [q] : M β _) [q] [q] (flipQ q) where
  keeps x p hp := flipQ_of_ne q p (by simpa using hp) x
  does s L hs ho := (sim_x hs ho).congrU fun x _ => by
    unfold ctlW
    rw [x_ket]
    split <;> rfl

theorem cnot (cs : List Reg) (c : ℕ) (r : Reg) (hr : r ≠ []) :
    Maps ang cs (Verif.cnot [c] r : M β _) ([c], r) (c :: r) (fun x => if x c = true then flipAll r x else x) where
  keeps x p hp := by
    split
    · unfold flipAll; rw [if_neg fun h => hp (by simp [h])]
    · rfl
  does s L hs ho := (sim_cnot hs hr ho).congrU fun x _ => by
    congr 1
    by_cases h1 : ∀ c ∈ cs.flatten, x c = true
    · by_cases h2 : x c = true
      · rw [if_pos ⟨h1, h2⟩, if_pos h1, if_pos h2]
      · rw [if_neg fun h => h2 h.2, if_pos h1, if_neg h2]
    · rw [if_neg fun h => h1 h.1, if_neg h1]

theorem negMask_cons (q : ℕ) (r : Reg) (hq : q ∉ r) (m : ℕ) (x : Asg) :
    negMask (q :: r) m x = negMask r (m / 2) (if m.testBit 0 = false then flipQ q x else x) := by
  funext p
  unfold negMask
  by_cases hp : p = q
  · subst hp
    simp only [List.mem_cons, true_or, List.idxOf_cons_self, true_and, hq, false_and, if_false]
    split
    · rw [flipQ_self]
    · rfl
  · have h1 : (p ∈ q :: r) ↔ p ∈ r := by simp [hp]
    have h2 : (if m.testBit 0 = false then flipQ q x else x) p = x p := by
      split
      · exact flipQ_of_ne q p hp x
      · rfl
    rw [h2]
    simp only [h1]
    rw [List.idxOf_cons_ne _ (Ne.symm hp), Nat.succ_eq_add_one, Nat.testBit_add_one]

theorem negMask_keeps (r : Reg) (m : ℕ) (x : Asg) (q : ℕ) (hq : q ∉ r) : negMask r m x q = x q := by
  unfold negMask; rw [if_neg fun h => hq h.1]

theorem negMask_negMask (r : Reg) (m : ℕ) (x : Asg) : negMask r m (negMask r m x) = x := by
  funext q
  unfold negMask
  split <;> simp

/-- the loop of `negate_bitmask` -/
theorem negFold (cs : List Reg) (r : Reg) (hn : r.Nodup) (acc : List Reg) (m : ℕ) :
    Maps ang cs ((r.map fun q => [q]).foldlM (fun (acc : List Reg × ℕ) qubit => do
      let lowest := acc.2 &&& 1
      let qubit ← if lowest = 0 then Gate.not qubit else Pure.pure qubit
      Pure.pure (acc.1 ++ [qubit], acc.2 >>> 1)) (acc, m) : M β _) (acc ++ r.map fun q => [q], m >>> r.length) r (negMask r m) := by
  induction r generalizing acc m with
  | nil =>
    simp only [List.map_nil, List.foldlM_nil, List.append_nil, List.length_nil, Nat.shiftRight_zero]
    exact (Maps.pure _).congr fun x => by funext q; simp [negMask]
  | cons q r ih =>
    obtain ⟨hq, hn⟩ := List.nodup_cons.mp hn
    rw [List.map_cons, List.foldlM_cons]
    have hb : m &&& 1 = 0 ↔ m.testBit 0 = false := by
      rw [Nat.and_one_is_mod, Nat.testBit_zero]
      simp
    have h1 : Maps ang cs (do
        let lowest := m &&& 1
        let qubit ← if lowest = 0 then Gate.not [q] else Pure.pure [q]
        Pure.pure (acc ++ [qubit], m >>> 1) : M β _) (acc ++ [[q]], m >>> 1) (q :: r) (fun x => if m.testBit 0 = false then flipQ q x else x) := by
      by_cases h0 : m.testBit 0 = false
      · simp only [if_pos (hb.mpr h0), if_pos h0]
        exact ((Maps.x cs q).map (f := fun a => (acc ++ [a], m >>> 1)) rfl).mono (by simp) (by simp)
      · simp only [if_neg fun h => h0 (hb.mp h), if_neg h0, pure_bind]
        exact Maps.pure _
    have h2 := (ih hn (acc ++ [[q]]) (m >>> 1)).mono (Q' := q :: r) hn (by intro p hp; simp [hp])
    refine ((h1.bind h2).cast rfl ?_).congr fun x => ?_
    · rw [List.append_assoc, List.length_cons, Nat.add_comm, Nat.shiftRight_add]; rfl
    · rw [negMask_cons q r hq, Nat.shiftRight_one]

theorem negateBitmask (cs : List Reg) (r : Reg) (hr : r ≠ []) (m : ℕ) :
    Maps ang cs (Verif.negateBitmask r m : M β _) r r (negMask r m) := by
  refine of_nodup (negMask_keeps r m) fun hn => ?_
  have := negFold (ang := ang) (β := β) cs r hn [] m
  refine ((this.bind (f := fun p => do
    let m ← mergeRegisters p.1
    unwrapO m) (c := r) (ψ := id) ?_).cast ?_ rfl).congr fun x => rfl
  · have : (do
        let m ← mergeRegisters (([] : List Reg) ++ r.map fun q => [q], m >>> r.length).1
        unwrapO m : M β _) = Pure.pure r := by
      rw [List.nil_append, mergeSingles r hr, pure_bind]
      rfl
    rw [this]
    exact Maps.pure r
  · unfold Verif.negateBitmask
    rw [splitAll_eq r hr hn, pure_bind]

/-! ## programs -/

variable {rs : List Reg}

/-- the lines of a program -/
theorem lines_nil : Maps ang cs (([] : List (Line β)).foldlM runLine (full rs)) (full rs) rs.flatten id := Maps.pure _

theorem lines_cons {l : Line β} {ls : List (Line β)} {Q : List ℕ} {ψ : Asg → Asg} (hn : rs.flatten.Nodup) (hv : ValidGroups rs l.groups)
    (h : Maps ang cs (l.call rs) (l.groups.map (groupReg rs)) Q φ) (hQ : Q = (l.groups.map (groupReg rs)).flatten)
    (h' : Maps ang cs (ls.foldlM runLine (full rs)) (full rs) rs.flatten ψ) :
    Maps ang cs ((l :: ls).foldlM runLine (full rs)) (full rs) rs.flatten (fun x => ψ (φ x)) := by
  rw [List.foldlM_cons]
  obtain ⟨g1, g2⟩ := groups_nodup rs hn _ hv
  have h2 := h.mono (Q' := rs.flatten) (by rw [hQ]; exact g1) (by rw [hQ]; exact g2)
  refine Maps.bind (a := full rs) ⟨h2.keeps, fun s L hs ho => ?_⟩ h'
  exact (h2.does s L hs ho).line hn hv

theorem lines_plain {f : List Reg → M β (List Reg)} {gs : List (List Sel)} {as : List Reg} {ls : List (Line β)} {ψ : Asg → Asg}
    (hn : rs.flatten.Nodup) (hv : ValidGroups rs gs) (hg : gs.map (groupReg rs) = as)
    (h : Maps ang cs (f as) as as.flatten φ) (h' : Maps ang cs (ls.foldlM runLine (full rs)) (full rs) rs.flatten ψ) :
    Maps ang cs ((.plain f gs :: ls).foldlM runLine (full rs)) (full rs) rs.flatten (fun x => ψ (φ x)) := by
  subst hg
  exact lines_cons (l := .plain f gs) hn hv h rfl h'

theorem program {lines : List (Line β)} (hr : ∀ r ∈ rs, r ≠ [])
    (hk : ∀ x q, q ∉ rs.flatten → φ x q = x q)
    (h : rs.flatten.Nodup → Maps ang cs (lines.foldlM runLine (full rs)) (full rs) rs.flatten φ) :
    Maps ang cs (Verif.program rs lines) rs rs.flatten φ where
  keeps := hk
  does s L hs ho := by
    have hn : rs.flatten.Nodup := (List.nodup_append.mp (List.nodup_append.mp ho.left).1).2.1
    exact Does.program hr hn ((h hn).does s L hs ho)

theorem op1 {g : Reg → M β Reg} {r r' : Reg} (h : Maps ang cs (g r) r' Q φ) : Maps ang cs (Verif.op1 g [r]) [r'] Q φ :=
  h.map rfl

/-- `control x` lines -/
theorem control_x {g0 g1 : List Sel} {q : ℕ} (h0 : groupReg rs g0 ≠ []) (h1 : groupReg rs g1 = [q]) :
    Maps ang cs (Line.call rs (.control none (Verif.op1 Gate.x) [g0, g1] : Line β)) ([g0, g1].map (groupReg rs))
      ([g0, g1].map (groupReg rs)).flatten (fun x => if ∀ c ∈ groupReg rs g0, x c = true then flipQ q x else x) := by
  have h := Maps.map (f := fun p : List Reg × Reg => p.2 :: p.1)
    (Maps.conditioned (ang := ang) (β := β) (cs := cs) h0 (Maps.op1 (Maps.x (β := Conditioned β) (groupReg rs g0 :: cs) q))) rfl
  have e : ([g0, g1].map (groupReg rs)).flatten = groupReg rs g0 ++ [q] := by simp [h1]
  rw [e]
  refine Maps.cast h ?_ (by simp [h1])
  unfold Line.call
  simp only [List.map_cons, List.map_nil, h1, pure_bind]

/-- inside nested conditions -/
theorem under {crs : List Reg} {m : M (NB crs.length) α} (h : Maps ang crs m a Q φ) (hc : ∀ c ∈ crs, c ≠ []) (s : LocalBuilder)
    (L : List ℕ) (ho : Own s (crs.flatten ++ Q ++ L)) :
    Does ang (Verif.under crs m) s (a, crs) (crs.flatten ++ Q ++ L) (fun x => ket (if ∀ c ∈ crs.flatten, x c = true then φ x else x)) :=
  under_does crs _ hc (h.does _ L (ctl_stack crs s hc) (by rw [root_stack]; exact ho))

end Maps

end Verif
