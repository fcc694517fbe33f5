import Verif.Spec.Counts
import Verif.Proofs.Pool
import Verif.Proofs.QuietMod

/-! # Counting elements and qubits: methods, temporaries, `toffoli` -/

namespace Verif
open Classical RegOps CircuitBuilder TempBuilder Rooted

/-! ## profiles -/

theorem prof_nil : prof [] = 0 := rfl

theorem prof_append (p q : Pipeline) : prof (p ++ q) = prof p + prof q := by
  funext k
  simp [prof]

theorem prof_one (e : List ℕ × CObj) : prof [e] = one (kindOf e) := by
  funext k
  unfold prof one
  by_cases h : kindOf e = k
  · subst h; simp
  · rw [Pi.single_apply, if_neg (Ne.symm h)]
    simp [h]

theorem prof_cons (e : List ℕ × CObj) (p : Pipeline) : prof (e :: p) = one (kindOf e) + prof p := by
  rw [← prof_one, ← prof_append]; rfl

theorem prof_const (p : Pipeline) (k : Kind) (h : ∀ e ∈ p, kindOf e = k) : prof p = p.length • one k := by
  induction p with
  | nil => simp [prof_nil]
  | cons e p ih =>
    rw [prof_cons, ih fun e he => h e (by simp [he]), h e (by simp), List.length_cons, succ_nsmul, add_comm]

theorem prof_total (p : Pipeline) : (prof p).total = p.length := by
  induction p with
  | nil => simp [prof_nil, Profile.total]
  | cons e p ih =>
    rw [prof_cons, List.length_cons, ← ih]
    unfold Profile.total one
    simp [Finset.sum_add_distrib, add_comm]

theorem prof_cnots (c : ℕ) (r : Reg) : prof (cnots c r) = r.length • one .cnot := by
  rw [prof_const _ .cnot]
  · simp [cnots]
  · intro e he
    obtain ⟨q, -, rfl⟩ := List.mem_map.mp he
    rfl

/-- the kind of a one-qubit gate -/
def kind1 (u : UObj) : Kind := kindOf ([0], ⟨1, .unitary u⟩)

theorem prof_each (r : Reg) (u : UObj) : prof (each r u) = r.length • one (kind1 u) := by
  rw [prof_const _ (kind1 u)]
  · simp [each]
  · intro e he
    obtain ⟨q, -, rfl⟩ := List.mem_map.mp he
    rfl

theorem prof_basic (a b : ℕ) (r : Reg) : prof (basicToffoliSeg a b r) = tof2 r.length := by
  unfold basicToffoliSeg
  simp only [prof_append, prof_each, prof_cnots, show kind1 .H = .h from rfl, show kind1 .Z = .z from rfl, show kind1 .S = .s from rfl,
    show kind1 .T = .t from rfl]
  funext k
  cases k <;> simp [one, tof2] <;> ring

/-! ## qubits -/

theorem flatten_length_singles (l : List (List ℕ)) (h : ∀ r ∈ l, r.length = 1) : l.flatten.length = l.length := by
  induction l with
  | nil => rfl
  | cons r l ih =>
    rw [List.flatten_cons, List.length_append, h r (by simp), ih fun r hr => h r (by simp [hr]), List.length_cons, add_comm]

theorem own_le {b : LocalBuilder} {L : List ℕ} (h : Own b L) : L.length + b.zeroedQubits.length ≤ b.n := by
  have h1 : (L ++ b.zeroedQubits.flatten).length ≤ (List.range b.n).length :=
    List.Subperm.length_le (List.Nodup.subperm h.nodup fun q hq => List.mem_range.mpr (h.lt q hq))
  rw [List.length_append, flatten_length_singles _ h.pool, List.length_range] at h1
  exact h1

theorem inUse_le (b : LocalBuilder) : inUse b ≤ b.n := Nat.sub_le _ _

/-- `b'` has the elements `P` more than `b`, `k` qubits fewer in use, and qubits were added such that between `lo` and `hi` more qubits than in `b`
could be in use -/
structure Spent (b b' : LocalBuilder) (P : Profile) (k lo hi : ℕ) : Prop where
  seg : ∃ seg, b'.pipeline = b.pipeline ++ seg ∧ prof seg = P
  use : inUse b' + k = inUse b
  low : max b.n (inUse b + lo) ≤ b'.n
  high : b'.n ≤ max b.n (inUse b + hi)

theorem Spent.refl (b : LocalBuilder) : Spent b b 0 0 0 0 :=
  ⟨⟨[], by simp, rfl⟩, rfl, by simpa using inUse_le b, by simp⟩

theorem Spent.weaken {b b' : LocalBuilder} {P : Profile} {k lo hi lo' hi' : ℕ} (h : Spent b b' P k lo hi) (h1 : lo' ≤ lo) (h2 : hi ≤ hi') :
    Spent b b' P k lo' hi' :=
  ⟨h.seg, h.use, le_trans (by omega) h.low, le_trans h.high (by omega)⟩

theorem Spent.trans {b b1 b2 : LocalBuilder} {P P' : Profile} {k lo hi lo' hi' : ℕ} (h : Spent b b1 P 0 lo hi) (h' : Spent b1 b2 P' k lo' hi') :
    Spent b b2 (P + P') k (max lo lo') (max hi hi') := by
  obtain ⟨⟨p, h1, h2⟩, h3, h4, h5⟩ := h
  obtain ⟨⟨q, g1, g2⟩, g3, g4, g5⟩ := h'
  exact ⟨⟨p ++ q, by rw [g1, h1, List.append_assoc], by rw [prof_append, h2, g2]⟩, by omega, by omega, by omega⟩

theorem makeTemp_spent {b b1 : LocalBuilder} {L : List ℕ} (ho : Own b L) {t : Reg} (h : LocalBuilder.makeTempQubit b = .ok t b1) :
    inUse b1 = inUse b + 1 ∧ b1.n = max b.n (inUse b + 1) ∧ b1.pipeline = b.pipeline := by
  have hle := own_le ho
  unfold LocalBuilder.makeTempQubit at h
  rw [bind_ok (get_run b)] at h
  rcases List.eq_nil_or_concat b.zeroedQubits with hz | ⟨pool, r, hz⟩
  · rw [show b.zeroedQubits.getLast? = none by rw [hz]; rfl] at h
    have hq' : (qubit : M LocalBuilder Reg) b = .ok [b.n] { b with n := b.n + 1 } := rfl
    simp only at h
    rw [hq'] at h
    cases h
    simp [inUse, hz]
  · rw [List.concat_eq_append] at hz
    rw [hz] at h
    simp only [List.getLast?_append, List.getLast?_singleton, Option.some_or, List.dropLast_concat] at h
    cases h
    simp only [inUse, hz, List.length_append, List.length_singleton]
    rw [hz] at hle
    simp only [List.length_append, List.length_singleton] at hle
    exact ⟨by omega, by show b.n = _; omega, trivial⟩

/-- The method returns `a`, the caller then holds `L`, and so much was spent. -/
def Uses {β α : Type} [Rooted β] (m : M β α) (s : β) (a : α) (L : List ℕ) (P : Profile) (k lo hi : ℕ) : Prop :=
  ∃ s', m s = .ok a s' ∧ ctl s' = ctl s ∧ Own (root s') L ∧ Spent (root s) (root s') P k lo hi

namespace Uses

section
variable {β α γ : Type} [Rooted β]

theorem pure {s : β} {L : List ℕ} (h : Own (root s) L) (a : α) : Uses (Pure.pure a : M β α) s a L 0 0 0 0 := ⟨s, rfl, rfl, h, Spent.refl _⟩

theorem bind {m : M β α} {f : α → M β γ} {s : β} {a : α} {c : γ} {L L2 : List ℕ} {P P' : Profile} {k lo hi lo' hi' : ℕ}
    (h : Uses m s a L P 0 lo hi) (h' : ∀ s', ctl s' = ctl s → Own (root s') L → Uses (f a) s' c L2 P' k lo' hi') :
    Uses (m >>= f) s c L2 (P + P') k (max lo lo') (max hi hi') := by
  obtain ⟨s1, h1, h2, h3, h4⟩ := h
  obtain ⟨s2, g1, g2, g3, g4⟩ := h' s1 h2 h3
  exact ⟨s2, by rw [bind_ok h1, g1], g2.trans h2, g3, h4.trans g4⟩

theorem congr {m : M β α} {s : β} {a : α} {L L' : List ℕ} {P P' : Profile} {k lo hi lo' hi' : ℕ} (h : Uses m s a L P k lo hi) (hL : L.Perm L')
    (hP : P = P') (h1 : lo' ≤ lo) (h2 : hi ≤ hi') : Uses m s a L' P' k lo' hi' := by
  subst hP
  obtain ⟨s', g1, g2, g3, g4⟩ := h
  exact ⟨s', g1, g2, g3.perm hL, g4.weaken h1 h2⟩

theorem perm {m : M β α} {s : β} {a : α} {L L' : List ℕ} {P : Profile} {k lo hi : ℕ} (h : Uses m s a L P k lo hi) (hL : L.Perm L') :
    Uses m s a L' P k lo hi := h.congr hL rfl (le_refl _) (le_refl _)

theorem unwrap {m : M β α} {s : β} {a : α} {L : List ℕ} {P : Profile} {k lo hi : ℕ} (h : Uses m s a L P k lo hi) : Uses (unwrapM m) s a L P k lo hi := by
  obtain ⟨s', h1, h2⟩ := h
  exact ⟨s', unwrapM_ok h1, h2⟩

end

theorem emits {α : Type} {m : M LocalBuilder α} {a : α} {p : Pipeline} (h : Emits m a p) {s : LocalBuilder} {L : List ℕ} (ho : Own s L) :
    Uses m s a L (prof p) 0 0 0 := by
  refine ⟨_, h s, rfl, ho.pipe _, ⟨p, rfl, rfl⟩, rfl, ?_, ?_⟩
  · show max s.n (inUse s + 0) ≤ s.n
    have := inUse_le s
    omega
  · show s.n ≤ _
    exact le_max_left _ _

section
variable {β α γ : Type} [Conditionable β] [Rooted β] [Sim β]

/-- a temporary qubit is made -/
theorem temp1 {f : Reg → M β γ} {s : β} {L L2 : List ℕ} {c : γ} {P : Profile} {k lo hi : ℕ} (ho : Own (root s) L)
    (h : ∀ t s', ctl s' = ctl s → Own (root s') (t :: L) → Uses (f [t]) s' c L2 P (k + 1) lo hi) :
    Uses (makeTempQubit >>= f) s c L2 P k (lo + 1) (hi + 1) := by
  obtain ⟨t, b1, h1, h4, -, -, -, -⟩ := makeTemp_local ho
  obtain ⟨s1, k1, k2, k3⟩ := Sim.makeTemp (β := β) (s := s) h1
  subst k2
  obtain ⟨e1, e2, e3⟩ := makeTemp_spent ho h1
  obtain ⟨s2, g1, g2, g3, ⟨p, q1, q2⟩, g4, g5, g6⟩ := h t s1 k3 h4
  refine ⟨s2, by rw [bind_ok k1, g1], g2.trans k3, g3, ⟨p, by rw [q1, e3], q2⟩, by omega, by omega, by omega⟩

theorem makes {n : ℕ} {s : β} {L : List ℕ} (ho : Own (root s) L) :
    ∃ t s', ((List.range n).mapM fun _ => makeTempQubit (β := β)) s = .ok (t.map fun q => [q]) s' ∧ t.length = n ∧
      ctl s' = ctl s ∧ Own (root s') (t ++ L) ∧ inUse (root s') = inUse (root s) + n ∧ (root s').n = max (root s).n (inUse (root s) + n) ∧
      (root s').pipeline = (root s).pipeline := by
  suffices H : ∀ (l : List ℕ) (s : β) (L : List ℕ), Own (root s) L →
      ∃ t s', (l.mapM fun _ => makeTempQubit (β := β)) s = .ok (t.map fun q => [q]) s' ∧ t.length = l.length ∧
      ctl s' = ctl s ∧ (∃ t', t'.Perm t ∧ Own (root s') (t' ++ L)) ∧ inUse (root s') = inUse (root s) + l.length ∧
      (root s').n = max (root s).n (inUse (root s) + l.length) ∧ (root s').pipeline = (root s).pipeline by
    obtain ⟨t, s', h1, h2, h3, ⟨t', h4, h5⟩, h6⟩ := H (List.range n) s L ho
    rw [List.length_range] at h6 h2
    exact ⟨t, s', h1, h2, h3, h5.perm (h4.append_right L), h6⟩
  intro l
  induction l with
  | nil =>
    intro s L ho
    exact ⟨[], s, rfl, rfl, rfl, ⟨[], List.Perm.refl _, ho⟩, rfl, by have := inUse_le (root s); simp; omega, rfl⟩
  | cons a l ih =>
    intro s L ho
    obtain ⟨q, b1, h1, h2, -⟩ := makeTemp_local ho
    obtain ⟨s1, k1, k2, k3⟩ := Sim.makeTemp (β := β) (s := s) h1
    subst k2
    obtain ⟨e1, e2, e3⟩ := makeTemp_spent ho h1
    obtain ⟨t, s', g1, g2, g3, ⟨t', g4, g5⟩, g6, g7, g8⟩ := ih s1 (q :: L) h2
    refine ⟨q :: t, s', ?_, by simp [g2], g3.trans k3, ⟨t' ++ [q], ?_, by simpa using g5⟩, by simp; omega, by simp; omega, g8.trans e3⟩
    · rw [List.mapM_cons, bind_ok k1, bind_ok g1]; rfl
    · exact (List.perm_append_singleton q t').trans (g4.cons q)

/-- a temporary register is made -/
theorem temp {n : ℕ} (hn : 0 < n) {f : Reg → M β γ} {s : β} {L L2 : List ℕ} {c : γ} {P : Profile} {k lo hi : ℕ} (ho : Own (root s) L)
    (h : ∀ t s', t.length = n → ctl s' = ctl s → Own (root s') (t ++ L) → Uses (f t) s' c L2 P (k + n) lo hi) :
    Uses (makeTempRegister n >>= f) s c L2 P k (lo + n) (hi + n) := by
  obtain ⟨t, s1, h1, h2, h3, h4, e1, e2, e3⟩ := makes (n := n) ho
  have h1' : (makeTempRegister n : M β Reg) s = .ok t s1 := by
    unfold makeTempRegister
    rw [bind_ok h1, mergeSingles t (by rintro rfl; simp at h2; omega)]
    rfl
  obtain ⟨s2, g1, g2, g3, ⟨p, q1, q2⟩, g4, g5, g6⟩ := h t s1 h2 h3 h4
  refine ⟨s2, by rw [bind_ok h1', g1], g2.trans h3, g3, ⟨p, by rw [q1, e3], q2⟩, by omega, by omega, by omega⟩

/-- a temporary register is returned -/
theorem give {f : Unit → M β γ} {s : β} {t : Reg} {L L2 : List ℕ} {c : γ} {P : Profile} {k hi : ℕ} (ht : t ≠ []) (ho : Own (root s) (t ++ L))
    (h : ∀ s', ctl s' = ctl s → Own (root s') L → Uses (f ()) s' c L2 P k 0 hi) :
    Uses (returnTemp t >>= f) s c L2 P (k + t.length) 0 hi := by
  have hle := own_le ho
  obtain ⟨b, g1, g2, g3, g4, g5, g6, -⟩ := returnTempR_local t ht ho
  obtain ⟨s1, k1, k2, k3⟩ := Sim.returnTemp (β := β) (s := s) g1
  subst k2
  have e1 : inUse (root s1) + t.length = inUse (root s) := by
    unfold inUse
    rw [g4, g6]
    simp only [List.length_append, List.length_map] at hle ⊢
    omega
  obtain ⟨s2, q1, q2, q3, ⟨p, w1, w2⟩, q4, q5, q6⟩ := h s1 k3 g2
  have := inUse_le (root s)
  refine ⟨s2, by rw [bind_ok k1, q1], q2.trans k3, q3, ⟨p, by rw [w1, g3], w2⟩, by omega, by omega, by omega⟩

end

end Uses

/-! ## `toffoli` -/

theorem toffoliF_uses (k : ℕ) : ∀ (cr r L : List ℕ) (s : LocalBuilder), cr.length ≤ k → cr ≠ [] → r ≠ [] →
    Own s (cr ++ r ++ L) → Uses (toffoliF (β := LocalBuilder) (k + 1) cr r) s (cr, r) (cr ++ r ++ L) (tofN cr.length r.length) 0 (cr.length - 2) (cr.length - 2) := by
  induction k with
  | zero => intro cr r L s h hne; exact absurd (List.length_eq_zero_iff.mp (Nat.le_zero.mp h)) hne
  | succ k ih =>
    intro cr r L s hk hcr hr ho
    have hnd : (cr ++ r).Nodup := (List.nodup_append.mp ho.left).1
    match cr, hcr with
    | [c], _ =>
      rw [toffoliF, if_pos (by rfl)]
      exact (Uses.emits (cnot_emits c r hr hnd) ho).congr (List.Perm.refl _) (prof_cnots c r) (by simp) (by simp)
    | [a, b], _ =>
      rw [toffoliF, if_neg (by simp), if_pos (by rfl)]
      refine (Uses.emits (basicToffoli_emits a b r hr hnd) ho).congr (List.Perm.refl _) ?_ (by simp) (by simp)
      rw [prof_basic]
      simp [tofN]
    | a :: b :: c :: cs, _ =>
      rw [toffoliF, if_neg (by simp), if_neg (by simp), LawfulReg.splitRel_eq]
      have hsp : splitE (a :: b :: c :: cs) [0, 1] = .ok (.split [a, b] (c :: cs)) :=
        splitE_prefix [a, b] (c :: cs) (List.nodup_append.mp hnd).1 (by simp) (by simp)
      rw [hsp]
      simp only [liftE_ok, pure_bind]
      refine (Uses.temp1 (k := 0) (lo := cs.length) (hi := cs.length) (P := tofN (a :: b :: c :: cs).length r.length) ho fun t s1 _ o1 => ?_).congr
        (List.Perm.refl _) rfl (by simp) (by simp)
      have perm1 : (t :: (a :: b :: c :: cs ++ r ++ L)).Perm ([a, b] ++ [t] ++ (c :: cs ++ r ++ L)) := by
        simp only [List.cons_append, List.nil_append]
        exact (List.Perm.swap a t _).trans (List.Perm.cons a (List.Perm.swap b t _))
      have perm2 : ([a, b] ++ [t] ++ (c :: cs ++ r ++ L)).Perm (((c :: cs) ++ [t]) ++ r ++ ([a, b] ++ L)) := by
        rw [List.perm_iff_count]
        intro q
        simp only [List.count_append]
        omega
      have hctn : ((c :: cs) ++ [t]).Nodup := by
        have := (o1.perm (perm1.trans perm2)).left
        exact (List.nodup_append.mp (List.nodup_append.mp this).1).1
      have hk2 : ([a, b] : List ℕ).length ≤ k := by simp at hk ⊢; omega
      have h5 : ∀ s' : LocalBuilder, Own (root s') ([a, b] ++ [t] ++ (c :: cs ++ r ++ L)) → Uses (do
          returnTemp [t]
          let cr ← mergeTwo [a, b] (c :: cs)
          pure (cr, r)) s' (a :: b :: c :: cs, r) (a :: b :: c :: cs ++ r ++ L) 0 (0 + 1) 0 0 := by
        intro s' o'
        refine Uses.give (t := [t]) (by simp) (o'.perm perm1.symm) fun s'' _ o'' => ?_
        rw [LawfulReg.mergeTwo_eq _ _ (by simp), pure_bind]
        exact Uses.pure o'' _
      have h4 : ∀ s' : LocalBuilder, Own (root s') ([a, b] ++ [t] ++ (c :: cs ++ r ++ L)) → Uses (do
          let (crhead, tr) ← unwrapM (toffoliF (k + 1) [a, b] [t])
          returnTemp tr
          let cr ← mergeTwo crhead (c :: cs)
          pure (cr, r)) s' (a :: b :: c :: cs, r) (a :: b :: c :: cs ++ r ++ L) (tofN 2 1 + 0) (0 + 1) (max 0 0) (max 0 0) :=
        fun s' o' => Uses.bind (ih [a, b] [t] _ s' hk2 (by simp) (by simp) o').unwrap fun s'' _ o'' => h5 s'' o''
      have h3 : ∀ s' : LocalBuilder, Own (root s') (((c :: cs) ++ [t]) ++ r ++ ([a, b] ++ L)) → Uses (do
          let (cr, r) ← unwrapM (toffoliF (k + 1) ((c :: cs) ++ [t]) r)
          let (crtail, tr) ← splitLast cr
          let tr ← unwrapO tr
          let (crhead, tr) ← unwrapM (toffoliF (k + 1) [a, b] tr)
          returnTemp tr
          let cr ← mergeTwo crhead crtail
          pure (cr, r)) s' (a :: b :: c :: cs, r) (a :: b :: c :: cs ++ r ++ L)
          (tofN ((c :: cs) ++ [t]).length r.length + (tofN 2 1 + 0)) (0 + 1) (max (((c :: cs) ++ [t]).length - 2) (max 0 0)) (max (((c :: cs) ++ [t]).length - 2) (max 0 0)) := by
        intro s' o'
        refine Uses.bind (ih ((c :: cs) ++ [t]) r _ s' (by simp at hk ⊢; omega) (by simp) hr o').unwrap fun s'' _ o'' => ?_
        simp only
        rw [splitLast_eq (c :: cs) t hctn (by simp)]
        simp only [pure_bind, unwrapO_some]
        exact h4 s'' (o''.perm perm2.symm)
      have h2 : Uses (do
          let (crhead, tr) ← unwrapM (toffoliF (k + 1) [a, b] [t])
          let cr ← mergeTwo (c :: cs) tr
          let (cr, r) ← unwrapM (toffoliF (k + 1) cr r)
          let (crtail, tr) ← splitLast cr
          let tr ← unwrapO tr
          let (crhead, tr) ← unwrapM (toffoliF (k + 1) crhead tr)
          returnTemp tr
          let cr ← mergeTwo crhead crtail
          pure (cr, r)) s1 (a :: b :: c :: cs, r) (a :: b :: c :: cs ++ r ++ L)
          (tofN 2 1 + (tofN ((c :: cs) ++ [t]).length r.length + (tofN 2 1 + 0))) (0 + 1) (max 0 (max (((c :: cs) ++ [t]).length - 2) (max 0 0)))
          (max 0 (max (((c :: cs) ++ [t]).length - 2) (max 0 0))) := by
        refine Uses.bind (ih [a, b] [t] _ s1 hk2 (by simp) (by simp) (o1.perm perm1)).unwrap fun s'' _ o'' => ?_
        simp only
        rw [LawfulReg.mergeTwo_eq _ _ (by simp), pure_bind]
        exact h3 s'' (o''.perm perm2)
      refine h2.congr (List.Perm.refl _) ?_ (by simp) (by simp)
      simp only [List.length_append, List.length_cons, List.length_nil]
      funext q
      simp only [tofN, Pi.add_apply, Pi.smul_apply, smul_eq_mul, Pi.zero_apply]
      ring

theorem toffoli_uses (cr r L : List ℕ) (s : LocalBuilder) (hcr : cr ≠ []) (hr : r ≠ []) (ho : Own s (cr ++ r ++ L)) :
    Uses (toffoli (β := LocalBuilder) cr r) s (cr, r) (cr ++ r ++ L) (tofN cr.length r.length) 0 (cr.length - 2) (cr.length - 2) :=
  toffoliF_uses cr.length cr r L s (le_refl _) hcr hr ho

end Verif
