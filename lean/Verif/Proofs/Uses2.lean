import Verif.Proofs.Uses

/-! # Counting elements and qubits: gates inside conditions -/

namespace Verif
open Classical RegOps CircuitBuilder TempBuilder Rooted

/-! ## conditioned elements of a `LocalBuilder` -/

/-- gates, a Toffoli, gates -/
theorem conj_uses {g g' : Reg → M LocalBuilder Reg} {cr L : List ℕ} {q : ℕ} {s : LocalBuilder} {p p' : Pipeline} (hc : cr ≠ []) (ho : Own s (cr ++ [q] ++ L))
    (hg : Emits (g [q]) [q] p) (hg' : Emits (g' [q]) [q] p') :
    Uses (do
      let r ← g [q]
      let (cr, r) ← toffoli cr r
      let r ← g' r
      pure (cr, r)) s (cr, [q]) (cr ++ [q] ++ L) (prof p + (tofP cr.length + (prof p' + 0))) 0 (max 0 (max (cr.length - 2) (max 0 0)))
      (max 0 (max (cr.length - 2) (max 0 0))) :=
  Uses.bind (Uses.emits hg ho) fun s1 _ o1 => Uses.bind (toffoli_uses cr [q] L s1 hc (by simp) o1) fun s2 _ o2 =>
    Uses.bind (f := fun r => pure (cr, r)) (Uses.emits hg' o2) fun s3 _ o3 => Uses.pure o3 (cr, [q])

/-- a gate on a temporary that holds the conjunction of the controls `K` -/
theorem phaseTemp_uses {γ : Type} {g : Reg → M LocalBuilder Reg} {f : Reg → M LocalBuilder γ} {c : γ} {K L : List ℕ} {s : LocalBuilder} (hK : K ≠ [])
    (ho : Own s (K ++ L)) {p : Pipeline} (hg : ∀ t, Emits (g [t]) [t] (p.map fun e => ([t], e.2))) {k : Kind}
    (hp : ∀ t, prof (p.map fun e => ([t], e.2)) = one k) (hf : f K = pure c) :
    Uses (do
      let tq ← makeTempQubit
      let (cr, tq) ← toffoli K tq
      let tq ← g tq
      let (cr, tq) ← toffoli cr tq
      returnTemp tq
      f cr) s c (K ++ L) (tofP K.length + (one k + (tofP K.length + 0))) 0 (K.length - 2 + 1) (K.length - 2 + 1) := by
  refine (Uses.temp1 (k := 0) (lo := K.length - 2) (hi := K.length - 2) ho fun t s1 _ o1 => ?_)
  have perm : (t :: (K ++ L)).Perm (K ++ [t] ++ L) := by
    rw [List.append_assoc]; exact List.perm_middle.symm
  have h5 : ∀ s' : LocalBuilder, Own s' (K ++ [t] ++ L) → Uses (do
      returnTemp [t]
      f K) s' c (K ++ L) 0 (0 + 1) 0 0 := by
    intro s' o'
    refine Uses.give (t := [t]) (by simp) (o'.perm perm.symm) fun s'' _ o'' => ?_
    rw [hf]
    exact Uses.pure o'' _
  have h4 : ∀ s' : LocalBuilder, Own s' (K ++ [t] ++ L) → Uses (do
      let (cr, tq) ← toffoli K [t]
      returnTemp tq
      f cr) s' c (K ++ L) (tofP K.length + 0) (0 + 1) (max (K.length - 2) 0) (max (K.length - 2) 0) :=
    fun s' o' => Uses.bind (toffoli_uses K [t] L s' hK (by simp) o') fun s'' _ o'' => h5 s'' o''
  have h3 : ∀ s' : LocalBuilder, Own s' (K ++ [t] ++ L) → Uses (do
      let tq ← g [t]
      let (cr, tq) ← toffoli K tq
      returnTemp tq
      f cr) s' c (K ++ L) (one k + (tofP K.length + 0)) (0 + 1) (max 0 (max (K.length - 2) 0)) (max 0 (max (K.length - 2) 0)) :=
    fun s' o' => Uses.bind ((Uses.emits (hg t) o').congr (List.Perm.refl _) (hp t) (le_refl _) (le_refl _)) fun s'' _ o'' => h4 s'' o''
  have h2 : Uses (do
      let (cr, tq) ← toffoli K [t]
      let tq ← g tq
      let (cr, tq) ← toffoli cr tq
      returnTemp tq
      f cr) s1 c (K ++ L) (tofP K.length + (one k + (tofP K.length + 0))) (0 + 1) (max (K.length - 2) (max 0 (max (K.length - 2) 0)))
        (max (K.length - 2) (max 0 (max (K.length - 2) 0))) :=
    Uses.bind (toffoli_uses K [t] L s1 hK (by simp) (o1.perm perm)) fun s2 _ o2 => h3 s2 o2
  exact h2.congr (List.Perm.refl _) rfl (by omega) (by omega)

theorem condPhase_uses {g : Reg → M LocalBuilder Reg} {u : UObj} (he : ∀ t, Emits (g [t]) [t] (each [t] u)) (cr : Reg) (q : ℕ)
    (L : List ℕ) (s : LocalBuilder) (hc : cr ≠ []) (ho : Own s (cr ++ [q] ++ L)) :
    Uses (LocalBuilder.condPhase g cr [q]) s (cr, [q]) (cr ++ [q] ++ L) (one (kind1 u) + 2 • tofP (cr.length + 1)) 0 cr.length cr.length := by
  have hnd : (cr ++ [q]).Nodup := (List.nodup_append.mp ho.left).1
  have hpos := List.length_pos_iff.mpr hc
  unfold LocalBuilder.condPhase
  rw [LawfulReg.mergeTwo_eq _ _ (by simp), pure_bind]
  refine (phaseTemp_uses (K := cr ++ [q]) (p := [([0], ⟨1, .unitary u⟩)]) (k := kind1 u) (by simp) ho he (fun t => prof_one _) (f := fun cr => do
      let (cr, r) ← splitLast cr
      let r ← unwrapO r
      pure (cr, r)) (c := (cr, [q])) ?_).congr (List.Perm.refl _) ?_ (by simp; omega) (by simp; omega)
  · rw [splitLast_eq cr q hnd hc]
    rfl
  · rw [List.length_append, List.length_singleton]
    abel

theorem condRz_uses (cr : Reg) (q : ℕ) (L : List ℕ) (s : LocalBuilder) (hc : cr ≠ []) (ho : Own s (cr ++ [q] ++ L)) (n : ℕ) (ρ : Rot) :
    Uses (LocalBuilder.tryCond cr [q] ⟨n, .unitary (.Rz ρ)⟩) s (cr, [q]) (cr ++ [q] ++ L) (one .rz + 2 • tofP (cr.length + 1)) 0 cr.length cr.length := by
  have hnd : (cr ++ [q]).Nodup := (List.nodup_append.mp ho.left).1
  have hpos := List.length_pos_iff.mpr hc
  let g : Reg → M LocalBuilder Reg := fun tq => match ρ with
      | .floating theta => LocalBuilder.rz tq theta
      | .piRational q => LocalBuilder.rzRatio tq q
  have hg : ∀ t, Emits (g [t]) [t] [([t], ⟨1, .unitary (.Rz (.floating (rotAngle ρ)))⟩)] := by
    intro t
    cases ρ with
    | floating θ => exact rz_emits [t] θ
    | piRational q => exact rzRatio_emits [t] q
  have h := phaseTemp_uses (K := cr ++ [q]) (p := [([0], ⟨1, .unitary (.Rz (.floating (rotAngle ρ)))⟩)]) (k := .rz) (by simp) ho hg (fun t => prof_one _) (f := fun K => do
      match ← RegOps.splitRel K (List.range cr.length) with
      | .split cr r => pure (cr, r)
      | .selected _ => throw .panic
      | .unselected _ => throw .panic) (c := (cr, [q])) (by
    rw [LawfulReg.splitRel_eq, splitE_prefix cr [q] hnd hc (by simp)]
    rfl)
  unfold LocalBuilder.tryCond
  simp only
  rw [LawfulReg.mergeTwo_eq _ _ (by simp [hc]), pure_bind]
  refine Uses.congr ?_ (List.Perm.refl _) (P := tofP (cr ++ [q]).length + (one .rz + (tofP (cr ++ [q]).length + 0))) ?_
    (lo := (cr ++ [q]).length - 2 + 1) (hi := (cr ++ [q]).length - 2 + 1) (by simp; omega) (by simp; omega)
  · cases ρ <;> exact h
  · rw [List.length_append, List.length_singleton]
    abel

theorem ryPiBy_emits (q : ℕ) {m : ℤ} (hm : m ≠ 0) :
    ∃ p, Emits (Rotations.ryPiBy [q] m : M LocalBuilder Reg) [q] p ∧ prof p = 2 • one .s + 2 • one .h + one .rz + one .z := by
  have h := ryRatio_emits [q] (by simp) (by simp) (fun r => LocalBuilder.rzRatio r (-(1 / (m : ℚ)))) _ (rzRatio_emits [q] _)
  have h2 : (Rotations.ryPiBy [q] m : M LocalBuilder Reg) = (do
      let r ← Gate.s [q]
      let r ← Gate.h r
      let r ← LocalBuilder.rzRatio r (-(1 / (m : ℚ)))
      let r ← Gate.h r
      sDagger r) := by
    show piByDefault (ryRatioDefault LocalBuilder.rzRatio) [q] m = _
    unfold piByDefault ratio1 ryRatioDefault
    rw [if_neg hm, pure_bind]
  refine ⟨_, h2 ▸ h, ?_⟩
  simp only [prof_append, prof_each, prof_one, List.length_singleton, one_smul, show kind1 .H = .h from rfl, show kind1 .Z = .z from rfl,
    show kind1 .S = .s from rfl]
  rw [show kindOf ([q], (⟨1, .unitary (.Rz (.floating ((-(1 / (m : ℚ)) : ℚ) : ℝ)))⟩ : CObj)) = .rz from rfl]
  abel

theorem condCnot_uses (cr L : List ℕ) (a b : ℕ) (s : LocalBuilder) (hc : cr ≠ []) (ho : Own s (cr ++ [a, b] ++ L)) (n : ℕ) :
    Uses (LocalBuilder.tryCond cr [a, b] ⟨n, .unitary .CNOT⟩) s (cr, [a, b]) (cr ++ [a, b] ++ L) (tofP (cr.length + 1)) 0 (cr.length - 1) (cr.length - 1) := by
  have hnd : (cr ++ [a, b]).Nodup := (List.nodup_append.mp ho.left).1
  have hab : a ≠ b := by
    have := (List.nodup_append.mp hnd).2.1; simpa using this
  have hca : (cr ++ [a]).Nodup := by
    have : (cr ++ [a]).Sublist (cr ++ [a, b]) := List.Sublist.append_left (by simp) cr
    exact this.nodup hnd
  have hsplit : (splitFirst [a, b] : M LocalBuilder _) = pure (some [a], [b]) := splitFirst_eq a [b] (by simpa using hab) (by simp)
  have h1 := Uses.bind (toffoli_uses (cr ++ [a]) [b] L s (by simp) (by simp) (by simpa using ho)) (c := (cr, [a, b]))
    (L2 := cr ++ [a, b] ++ L) (P' := 0) (k := 0) (lo' := 0) (hi' := 0) (f := fun p => do
      let (cr, ra) ← splitLast p.1
      let ra ← unwrapO ra
      let r ← RegOps.mergeTwo ra p.2
      pure (cr, r)) (by
    intro s' _ o'
    simp only
    rw [splitLast_eq cr a hca hc]
    simp only [pure_bind, unwrapO_some]
    rw [LawfulReg.mergeTwo_eq _ _ (by simp), pure_bind]
    exact Uses.pure (by simpa using o') _)
  refine Uses.congr ?_ (List.Perm.refl _) (P := tofN (cr ++ [a]).length [b].length + 0) (lo := max ((cr ++ [a]).length - 2) 0)
    (hi := max ((cr ++ [a]).length - 2) 0) (by simp) (by simp) (by simp)
  unfold LocalBuilder.tryCond
  simp only
  rw [if_neg (by simp)]
  simp only [pure_bind, hsplit, unwrapO_some]
  rw [LawfulReg.mergeTwo_eq _ _ (by simp), pure_bind]
  exact h1

/-- the elements that a conditioned builder makes of an element -/
theorem tryCond_uses (cr r : Reg) (co : CObj) (L : List ℕ) (s : LocalBuilder) (hc : cr ≠ []) (ho : Own s (cr ++ r ++ L)) (hk : kindOf (r, co) ≠ .other) :
    Uses (LocalBuilder.tryCond cr r co) s (cr, r) (cr ++ r ++ L) (condK cr.length (kindOf (r, co))) 0 0 cr.length := by
  have hpos := List.length_pos_iff.mpr hc
  have hne : cr.length ≠ 0 := by omega
  obtain ⟨n, o⟩ := co
  have one_of : ∀ {k : Kind}, (if r.length = 1 then k else .other) ≠ .other → ∃ q, r = [q] := by
    intro k h
    by_cases h1 : r.length = 1
    · exact List.length_eq_one_iff.mp h1
    · rw [if_neg h1] at h; exact absurd rfl h
  unfold kindOf at hk ⊢
  simp only at hk ⊢
  split at hk <;> rename_i ho'
  all_goals first | (exact absurd rfl hk) | skip
  · obtain ⟨q, rfl⟩ := one_of hk
    exact (toffoli_uses cr [q] L s hc (by simp) ho).congr (List.Perm.refl _) (by simp [condK, hne]) (by omega) (by omega)
  · obtain ⟨q, rfl⟩ := one_of hk
    refine (conj_uses hc ho (h_emits [q] (by simp) (by simp)) (h_emits [q] (by simp) (by simp))).congr (List.Perm.refl _) ?_ (by omega) (by omega)
    rw [prof_each]
    simp only [condK, hne, if_false, List.length_singleton, one_smul, if_true, show kind1 .H = .h from rfl]
    abel
  · obtain ⟨q, rfl⟩ := one_of hk
    exact (condPhase_uses (u := .S) (fun t => s_emits [t] (by simp) (by simp)) cr q L s hc ho).congr (List.Perm.refl _) (by simp [condK, hne]; rfl) (by omega) (by omega)
  · obtain ⟨q, rfl⟩ := one_of hk
    exact (condPhase_uses (u := .T) (fun t => t_emits [t] (by simp) (by simp)) cr q L s hc ho).congr (List.Perm.refl _) (by simp [condK, hne]; rfl) (by omega) (by omega)
  · obtain ⟨q, rfl⟩ := one_of hk
    obtain ⟨p, h1, h2⟩ := ryPiBy_emits q (m := 4) (by norm_num)
    obtain ⟨p', h3, h4⟩ := ryPiBy_emits q (m := -4) (by norm_num)
    refine (conj_uses (g := fun r => Rotations.ryPiBy r 4) (g' := fun r => Rotations.ryPiBy r (-4)) hc ho h1 h3).congr (List.Perm.refl _) ?_ (by omega) (by omega)
    rw [h2, h4]
    simp only [condK, hne, if_false, List.length_singleton, if_true]
    abel
  · have h2 : r.length = 2 := by
      by_contra h
      rw [if_neg h] at hk; exact hk rfl
    obtain ⟨a, b, rfl⟩ := List.length_eq_two.mp h2
    exact (condCnot_uses cr L a b s hc ho n).congr (List.Perm.refl _) (by simp [condK, hne]) (by omega) (by omega)
  · obtain ⟨q, rfl⟩ := one_of hk
    exact (condRz_uses cr q L s hc ho n _).congr (List.Perm.refl _) (by simp [condK, hne]) (by omega) (by omega)

/-! ## in every builder -/

section
variable {β α γ : Type} [Conditionable β] [Rooted β] [Sim β] {cs : List Reg}

theorem Uses.of_root {m : M β α} {l : M LocalBuilder γ} {s : β} {a : α} {c : γ} {L : List ℕ} {P : Profile} {k lo hi : ℕ}
    (h : Uses l (root s) c L P k lo hi) (hm : ∀ b, l (root s) = .ok c b → Acts m s a b) : Uses m s a L P k lo hi := by
  obtain ⟨b, h1, -, h3, h4⟩ := h
  obtain ⟨s', k1, k2, k3⟩ := hm b h1
  exact ⟨s', k1, k3, by rw [k2]; exact h3, by rw [k2]; exact h4⟩

theorem Uses.conditioned {m : M (Conditioned β) α} {s : β} {cr : Reg} {a : α} {L : List ℕ} {P : Profile} {k lo hi : ℕ} (hs : ctl s = some cs) (hc : cr ≠ [])
    (h : Uses m ⟨s, some cr⟩ a L P k lo hi) : Uses (Conditioned.conditioned cr m) s (a, cr) L P k lo hi := by
  obtain ⟨s', h1, h2, h3⟩ := h
  rw [conditioned_ctl hs hc] at h2
  obtain ⟨cr', ps, e1, e2, e3, e4⟩ := ctl_conditioned h2
  injection e4 with e4 e5
  subst e4 e5
  refine ⟨s'.parent, ?_, e3.trans hs.symm, h3⟩
  unfold Conditioned.conditioned
  rw [h1]
  simp only
  rw [e1]

theorem Uses.line {rs : List Reg} (hn : rs.flatten.Nodup) {l : Line β} (hv : ValidGroups rs l.groups) {s : β} {L : List ℕ} {P : Profile} {k lo hi : ℕ}
    (h : Uses (l.call rs) s (l.groups.map (groupReg rs)) L P k lo hi) : Uses (runLine (full rs) l) s (full rs) L P k lo hi := by
  obtain ⟨s', h1, h2⟩ := h
  exact ⟨s', runLine_ok hn hv h1, h2⟩

theorem Uses.program {rs : List Reg} (hr : ∀ r ∈ rs, r ≠ []) (hn : rs.flatten.Nodup) {lines : List (Line β)} {s : β} {L : List ℕ} {P : Profile} {k lo hi : ℕ}
    (h : Uses (lines.foldlM runLine (full rs)) s (full rs) L P k lo hi) : Uses (Verif.program rs lines) s rs L P k lo hi := by
  obtain ⟨s', h1, h2⟩ := h
  refine ⟨s', ?_, h2⟩
  rw [program_eq rs hr hn, bind_ok h1, mergeSlots_full rs hr]
  rfl

end

/-- In every builder with conditions `cs` that holds the qubits `Q`, the method returns `a` and adds the elements `P`. It makes between `lo` and `hi`
qubits beyond those in use, as far as the builder does not have them already. -/
def Takes (cs : List Reg) {β α : Type} [Rooted β] (m : M β α) (a : α) (Q : List ℕ) (P : Profile) (lo hi : ℕ) : Prop :=
  ∀ (s : β) (L : List ℕ), ctl s = some cs → Own (root s) (cs.flatten ++ Q ++ L) → Uses m s a (cs.flatten ++ Q ++ L) P 0 lo hi

namespace Takes

section
variable {β α γ : Type} [Conditionable β] [Rooted β] [Sim β] {cs : List Reg}

theorem congr {m : M β α} {a : α} {Q : List ℕ} {P P' : Profile} {lo hi lo' hi' : ℕ} (h : Takes cs m a Q P lo hi) (hP : P = P') (h1 : lo' ≤ lo)
    (h2 : hi ≤ hi') : Takes cs m a Q P' lo' hi' := fun s L hs ho => (h s L hs ho).congr (List.Perm.refl _) hP h1 h2

theorem cast {m m' : M β α} {a a' : α} {Q Q' : List ℕ} {P : Profile} {lo hi : ℕ} (h : Takes cs m a Q P lo hi) (hm : m' = m) (ha : a' = a)
    (hQ : Q' = Q) : Takes cs m' a' Q' P lo hi := by subst hm ha hQ; exact h

theorem pure (a : α) (Q : List ℕ) : Takes cs (Pure.pure a : M β α) a Q 0 0 0 := fun _ _ _ ho => Uses.pure ho a

theorem mono {m : M β α} {a : α} {Q Q' : List ℕ} {P : Profile} {lo hi : ℕ} (h : Takes cs m a Q P lo hi) (hn : Q.Nodup) (hq : ∀ q ∈ Q, q ∈ Q') :
    Takes cs m a Q' P lo hi := by
  intro s L hs ho
  obtain ⟨R, hR⟩ := own_front Q hn hq ho
  exact (h s R hs (ho.perm hR)).perm hR.symm

theorem of_nodup {m : M β α} {a : α} {Q : List ℕ} {P : Profile} {lo hi : ℕ} (h : Q.Nodup → Takes cs m a Q P lo hi) : Takes cs m a Q P lo hi :=
  fun s L hs ho => h (List.nodup_append.mp (List.nodup_append.mp ho.left).1).2.1 s L hs ho

theorem bind {m : M β α} {f : α → M β γ} {a : α} {c : γ} {Q : List ℕ} {P P' : Profile} {lo hi lo' hi' : ℕ}
    (h : Takes cs m a Q P lo hi) (h' : Takes cs (f a) c Q P' lo' hi') : Takes cs (m >>= f) c Q (P + P') (max lo lo') (max hi hi') :=
  fun s L hs ho => (h s L hs ho).bind fun s' hs' ho' => h' s' L (hs'.trans hs) ho'

theorem map {m : M β α} {f : α → γ} {a : α} {c : γ} {Q : List ℕ} {P : Profile} {lo hi : ℕ} (h : Takes cs m a Q P lo hi) (hf : f a = c) :
    Takes cs (m >>= fun a => Pure.pure (f a)) c Q P lo hi := by
  have h2 : Takes cs (Pure.pure (f a) : M β γ) c Q 0 0 0 := by rw [hf]; exact pure c Q
  exact (h.bind (f := fun a => Pure.pure (f a)) h2).congr (add_zero _) (by omega) (by omega)

theorem unwrap {m : M β α} {a : α} {Q : List ℕ} {P : Profile} {lo hi : ℕ} (h : Takes cs m a Q P lo hi) : Takes cs (unwrapM m) a Q P lo hi :=
  fun s L hs ho => (h s L hs ho).unwrap

/-- one more condition -/
theorem conditioned {cr : Reg} (hc : cr ≠ []) {m : M (Conditioned β) α} {a : α} {Q : List ℕ} {P : Profile} {lo hi : ℕ}
    (h : Takes (cr :: cs) m a Q P lo hi) : Takes cs (Conditioned.conditioned cr m) (a, cr) (cr ++ Q) P lo hi := by
  intro s L hs ho
  have hp : (cs.flatten ++ (cr ++ Q) ++ L).Perm ((cr :: cs).flatten ++ Q ++ L) := by
    rw [List.flatten_cons]
    simp only [← List.append_assoc]
    exact (List.perm_append_comm.append_right Q).append_right L
  exact (Uses.conditioned hs hc (h ⟨s, some cr⟩ L (conditioned_ctl hs hc) (ho.perm hp))).perm hp.symm

/-! ## objects -/

theorem applyCO {r : Reg} {co : CObj} {P : ℕ → Profile} {lo hi : ℕ → ℕ}
    (free : ∀ (s : LocalBuilder) (L : List ℕ), Own s (r ++ L) → Uses (LocalBuilder.applyCO r co) s r (r ++ L) (P 0) 0 (lo 0) (hi 0))
    (cond : ∀ (s : LocalBuilder) (cr L : List ℕ), cr ≠ [] → Own s (cr ++ r ++ L) →
      Uses (LocalBuilder.tryCond cr r co) s (cr, r) (cr ++ r ++ L) (P cr.length) 0 (lo cr.length) (hi cr.length)) :
    Takes cs (CircuitBuilder.applyCO r co : M β Reg) r r (P cs.flatten.length) (lo cs.flatten.length) (hi cs.flatten.length) := by
  intro s L hs ho
  by_cases hc : cs = []
  · subst hc
    exact Uses.of_root (free (root s) L ho) fun b hb => Sim.applyCO_nil hs hb
  · exact Uses.of_root (cond (root s) cs.flatten L (flatten_ne hs hc) ho) fun b hb =>
      Sim.applyCO hs hc (List.nodup_append.mp (List.nodup_append.mp ho.left).1).1 hb

theorem gate {r : Reg} {co : CObj} {P : Profile} {lo hi : ℕ} (h : Takes cs (CircuitBuilder.applyCO r co : M β Reg) r r P lo hi) {mk : β → CObj}
    (hmk : ∀ s, mk s = co) : Takes cs (Verif.gate mk r) r r P lo hi := by
  intro s L hs ho
  obtain ⟨s', h1, h2⟩ := (h s L hs ho).unwrap
  refine ⟨s', ?_, h2⟩
  unfold Verif.gate
  rw [bind_ok (get_run s), hmk s]
  exact h1

/-- an object of a known kind -/
theorem elem (r : Reg) (co : CObj) (hr : r ≠ []) (hn : co.n = r.length) (hk : kindOf (r, co) ≠ .other) :
    Takes cs (CircuitBuilder.applyCO r co : M β Reg) r r (condK cs.flatten.length (kindOf (r, co))) 0 cs.flatten.length := by
  refine applyCO (P := fun c => condK c (kindOf (r, co))) (lo := fun _ => 0) (hi := fun c => c) (fun s L ho => ?_) fun s cr L hc ho =>
    tryCond_uses cr r co L s hc ho hk
  by_cases h1 : co.n = 1
  · obtain ⟨q, rfl⟩ := List.length_eq_one_iff.mp (hn.symm.trans h1)
    obtain ⟨n, o⟩ := co
    obtain rfl : n = 1 := h1
    refine (Uses.emits (applyCO_one_emits [q] (by simp) (by simp) o) ho).congr (List.Perm.refl _) ?_ (le_refl _) (le_refl _)
    rw [List.map_singleton, prof_one]; rfl
  · refine (Uses.emits (applyCO_n_emits r co hn h1) ho).congr (List.Perm.refl _) ?_ (le_refl _) (le_refl _)
    rw [prof_one]; rfl

theorem x (q : ℕ) : Takes cs (Gate.x [q] : M β Reg) [q] [q] (tofP cs.flatten.length) (cs.flatten.length - 2) (cs.flatten.length - 2) := by
  refine gate (co := ⟨1, .unitary .X⟩) (applyCO (P := tofP) (lo := fun c => c - 2) (hi := fun c => c - 2) (fun s L ho => ?_) fun s cr L hc ho => ?_) Sim.makeX
  · exact (Uses.emits (applyCO_one_emits [q] (by simp) (by simp) (.unitary .X)) ho).congr (List.Perm.refl _) (by rw [List.map_singleton, prof_one]; simp [tofN]; rfl) (le_refl _) (le_refl _)
  · exact toffoli_uses cr [q] L s hc (by simp) ho

/-- one target of a CNOT -/
theorem cnotStep (c q : ℕ) (hcq : c ≠ q) (acc : List Reg) :
    Takes cs (Verif.cnotStep ([c], acc) [q] : M β _) ([c], acc ++ [[q]]) [c, q] (tofP (cs.flatten.length + 1)) (cs.flatten.length - 1) (cs.flatten.length - 1) := by
  have h0 : Takes cs (CircuitBuilder.applyCO [c, q] ⟨2, .unitary .CNOT⟩ : M β Reg) [c, q] [c, q] (tofP (cs.flatten.length + 1))
      (cs.flatten.length - 1) (cs.flatten.length - 1) :=
    applyCO (P := fun c => tofP (c + 1)) (lo := fun c => c - 1) (hi := fun c => c - 1)
      (fun s L ho => (Uses.emits (applyCO_n_emits [c, q] _ rfl (by simp)) ho).congr (List.Perm.refl _) (by rw [prof_one]; simp [tofN]; rfl) (le_refl _) (le_refl _))
      fun s cr L hc ho => condCnot_uses cr L c q s hc ho 2
  have h1 : Takes cs (do
      match ← splitRel [c, q] [0] with
      | .split cr r => Pure.pure (cr, acc ++ [r])
      | .selected _ => throw .panic
      | .unselected _ => throw .panic : M β _) ([c], acc ++ [[q]]) [c, q] 0 0 0 := by
    rw [LawfulReg.splitRel_eq, splitE_head c [q] (by simpa using hcq) (by simp)]
    exact pure _ _
  have h2 := (h0.bind (f := fun r => do
      match ← splitRel r [0] with
      | .split cr r => Pure.pure (cr, acc ++ [r])
      | .selected _ => throw .panic
      | .unselected _ => throw .panic) h1).congr (add_zero _) (le_max_left _ _) (le_of_eq (Nat.max_zero _))
  intro s L hs ho
  obtain ⟨s2, k1, k2⟩ := h2 s L hs ho
  refine ⟨s2, ?_, k2⟩
  unfold Verif.cnotStep
  rw [LawfulReg.mergeTwo_eq _ _ (by simp), pure_bind, bind_ok (get_run s), Sim.makeCnot]
  exact k1

/-- CNOT with any number of targets -/
theorem cnot (c : ℕ) (r : Reg) (hr : r ≠ []) :
    Takes cs (Verif.cnot [c] r : M β _) ([c], r) (c :: r) (r.length • tofP (cs.flatten.length + 1)) (cs.flatten.length - 1) (cs.flatten.length - 1) := by
  refine of_nodup fun hnd => ?_
  obtain ⟨n1, n2⟩ := List.nodup_cons.mp hnd
  have fold : ∀ (q : ℕ) (t : Reg) (acc : List Reg), (∀ p ∈ q :: t, p ∈ r) →
      Takes cs (((q :: t).map fun q => [q]).foldlM Verif.cnotStep ([c], acc) : M β _) ([c], acc ++ (q :: t).map fun q => [q]) (c :: r)
        ((q :: t).length • tofP (cs.flatten.length + 1)) (cs.flatten.length - 1) (cs.flatten.length - 1) := by
    intro q t
    induction t generalizing q with
    | nil =>
      intro acc hq
      have hqr : q ∈ r := hq q (by simp)
      have hcq : c ≠ q := by rintro rfl; exact n1 hqr
      have h1 := (cnotStep (β := β) (cs := cs) c q hcq acc).mono (Q' := c :: r) (by simpa using hcq) (by intro p hp; simp at hp; rcases hp with rfl | rfl <;> simp [hqr])
      refine (h1.congr (by simp) (le_refl _) (le_refl _)).cast ?_ (by simp) rfl
      simp
    | cons p t ih =>
      intro acc hq
      have hqr : q ∈ r := hq q (by simp)
      have hcq : c ≠ q := by rintro rfl; exact n1 hqr
      have h1 := (cnotStep (β := β) (cs := cs) c q hcq acc).mono (Q' := c :: r) (by simpa using hcq) (by intro p hp; simp at hp; rcases hp with rfl | rfl <;> simp [hqr])
      have h2 := h1.bind (f := fun s => ((p :: t).map fun q => [q]).foldlM Verif.cnotStep s) (ih p (acc ++ [[q]]) fun p hp => hq p (by simp at hp ⊢; tauto))
      refine (h2.congr ?_ (by omega) (by omega)).cast ?_ (by simp) rfl
      · simp only [List.length_cons, add_smul, one_smul]; abel
      · rw [List.map_cons, List.foldlM_cons]
  obtain ⟨q, t, rfl⟩ := List.exists_cons_of_ne_nil hr
  have h1 := (fold q t [] fun _ h => h).bind (f := fun p => do
      let m ← mergeRegisters p.2
      let r ← unwrapO m
      Pure.pure (p.1, r)) (c := ([c], q :: t)) (P' := 0) (lo' := 0) (hi' := 0) (by
    simp only [List.nil_append]
    rw [mergeSingles (q :: t) hr]
    exact pure _ _)
  refine (h1.congr (add_zero _) (by omega) (by omega)).cast ?_ rfl rfl
  unfold Verif.cnot
  rw [if_neg (by simp), splitAll_eq (q :: t) hr n2, pure_bind]

/-- the exchange of two qubits -/
theorem swapPair (a b : ℕ) :
    Takes cs (Verif.swapPair [a] [b] : M β _) ([a], [b]) [a, b] (3 • tofP (cs.flatten.length + 1)) (cs.flatten.length - 1) (cs.flatten.length - 1) := by
  have h1 := cnot (β := β) (cs := cs) a [b] (by simp)
  have h2 : Takes cs (Verif.cnot [b] [a] : M β _) ([b], [a]) [a, b] _ _ _ := of_nodup fun hn =>
    (cnot (β := β) (cs := cs) b [a] (by simp)).mono (by simp at hn ⊢; exact fun h => hn h.symm) (by intro p hp; simp at hp ⊢; tauto)
  have h3 := h1.bind (f := fun p : Reg × Reg => do
        let (rb, ra) ← Verif.cnot p.2 p.1
        Verif.cnot ra rb) (h2.bind (f := fun p : Reg × Reg => Verif.cnot p.2 p.1) h1)
  refine (h3.unwrap.congr ?_ (by omega) (by omega)).cast ?_ rfl rfl
  · simp only [List.length_singleton, one_smul]
    rw [show (3 : ℕ) = 1 + (1 + 1) from rfl, add_smul, add_smul, one_smul]
  · unfold Verif.swapPair
    rw [if_neg (by simp)]

end

end Takes

end Verif
