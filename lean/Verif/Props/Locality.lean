import Verif.Props.Client
import Verif.Props.Runs

/-!
# Property C100: a function touches only what it is given

Whatever a function of a program does, it works on the registers moved into it, the conditions it works under, the pool
of temporaries and newly allocated qubits. The other registers of the program cannot tell whether it was called.
-/

namespace Verif.Props
open Rooted Ledger

theorem spares_iff [Stock] : (k : ℕ) → (s s' : NB k) → (L : List Reg) →
    (Spares s s' L ↔ (root s).n ≤ (root s').n ∧ ∃ seg, (root s').pipeline = (root s).pipeline ++ seg ∧
      (∀ e ∈ seg, ∀ q ∈ e.1, q ∉ L.flatten) ∧ (Stock.Silent → (root s').measurements = (root s).measurements + measCount seg))
  | 0, _, _, _ => Iff.rfl
  | k + 1, s, s', L => spares_iff k (Conditioned.parent (β := NB k) s) (Conditioned.parent (β := NB k) s') L

theorem leaves_spares {ok : CObj → Prop} {k : ℕ} {f : List Reg → M (NB k) (List Reg)} (hf : Client ok k f) {s s' : NB k}
    {rs others : List Reg} (h : Sound k s (rs ++ others)) (hl : Leaves f rs s s') :
    (root s).n ≤ (root s').n ∧ ∃ seg, (root s').pipeline = (root s).pipeline ++ seg ∧
      ∀ e ∈ seg, ∀ q ∈ e.1, q ∉ others.flatten := by
  letI := Stock.all
  obtain ⟨h1, h2⟩ := hf.keeping (fun _ _ => trivial) rs s others ((holds_iff k s _).mpr ⟨h, fun _ _ => trivial⟩)
  rcases hl with ⟨out, he⟩ | he
  · obtain ⟨hn, seg, g1, g2, -⟩ := (spares_iff k s s' others).mp (h1 out s' he).2
    exact ⟨hn, seg, g1, g2⟩
  · obtain ⟨hn, seg, g1, g2, -⟩ := (spares_iff k s s' others).mp ((NB.scraps_iff k s s' others).mp (h2 s' he).2)
    exact ⟨hn, seg, g1, g2⟩

/-- C100: a call of any function of a program, at any depth of conditions, only adds to the circuit, and the added elements
act on the registers given to it, the conditions, the temporaries in the pool and new qubits, also if it returns an `Err`. -/
theorem C100_touches {ok : CObj → Prop} {k : ℕ} {f : List Reg → M (NB k) (List Reg)} (hf : Client ok k f) {s s' : NB k}
    {rs : List Reg} (h : Sound k s rs) (hl : Leaves f rs s s') :
    (root s).n ≤ (root s').n ∧ ∃ seg, (root s').pipeline = (root s).pipeline ++ seg ∧
      ∀ e ∈ seg, ∀ q ∈ e.1, q ∈ rs.flatten ∨ q ∈ (NB.conds k s).flatten ∨ q ∈ (root s).zeroedQubits.flatten ∨ (root s).n ≤ q := by
  obtain ⟨hn, seg, hseg, -⟩ := leaves_spares hf (others := []) (by rw [List.append_nil]; exact h) hl
  refine ⟨hn, seg, hseg, fun e he q hq => ?_⟩
  by_contra hc
  simp only [not_or, Nat.not_le] at hc
  obtain ⟨c1, c2, c3, c4⟩ := hc
  have hs : Sound k s (rs ++ [[q]]) := by
    refine ⟨⟨h.own.pool, ?_, ?_⟩, ?_, h.placed⟩
    · have hp : (q :: ((NB.conds k s ++ rs).flatten ++ (root s).zeroedQubits.flatten)).Perm
          ((NB.conds k s ++ (rs ++ [[q]])).flatten ++ (root s).zeroedQubits.flatten) := by
        rw [List.perm_iff_count]
        intro x
        simp only [List.flatten_append, List.flatten_cons, List.flatten_nil, List.append_nil, List.count_append, List.count_cons,
          List.count_nil]
        omega
      refine hp.nodup_iff.mp (List.nodup_cons.mpr ⟨?_, h.own.nodup⟩)
      simp only [List.flatten_append, List.mem_append]
      tauto
    · intro x hx
      simp only [List.flatten_append, List.flatten_cons, List.flatten_nil, List.append_nil, List.mem_append, List.mem_singleton] at hx
      rcases hx with (hx | hx | rfl) | hx
      · exact h.own.lt x (by simp only [List.flatten_append, List.mem_append]; tauto)
      · exact h.own.lt x (by simp only [List.flatten_append, List.mem_append]; tauto)
      · exact c4
      · exact h.own.lt x (by simp only [List.mem_append]; tauto)
    · intro r hr
      simp only [List.mem_append, List.mem_singleton] at hr
      rcases hr with hr | hr | rfl
      · exact h.nonempty r (List.mem_append_left _ hr)
      · exact h.nonempty r (List.mem_append_right _ hr)
      · simp
  obtain ⟨-, seg', hseg', hd⟩ := leaves_spares hf hs hl
  have : seg' = seg := List.append_cancel_left (hseg'.symm.trans hseg)
  subst this
  exact hd e he q hq (by simp)

/-! ## no influence on the other registers -/

theorem sumOutcomes_snoc (p : Pipeline) (e : List ℕ × CObj) (F : List ℕ → ENNReal) :
    sumOutcomes (p ++ [e]) F =
      sumOutcomes p fun ms => if isMeas e then ∑ m ∈ Finset.range (2 ^ e.1.length), F (ms ++ [m]) else F ms := by
  induction p generalizing F with
  | nil => simp [sumOutcomes]
  | cons a p ih =>
    simp only [List.cons_append, sumOutcomes, ih]

theorem sumOutcomes_congr (p : Pipeline) (F G : List ℕ → ENNReal) (h : ∀ ms, ms.length = measCount p → F ms = G ms) :
    sumOutcomes p F = sumOutcomes p G := by
  induction p generalizing F G with
  | nil => exact h [] rfl
  | cons a p ih =>
    unfold sumOutcomes
    split
    · rename_i ha
      refine Finset.sum_congr rfl fun m _ => ih _ _ fun ms hms => h _ ?_
      simp [measCount, ha, hms]
    · rename_i ha
      refine ih _ _ fun ms hms => h _ ?_
      simp [measCount, ha, hms]

/-- elements on qubits not touched by the last element do not influence its outcome -/
theorem sum_spared (p : Pipeline) (seg : Pipeline) (l : List ℕ × CObj) (n m t z) (hd : ∀ e ∈ seg, List.Disjoint e.1 l.1)
    (hl : isMeas l = true) (hp : ∀ e ∈ p ++ seg ++ [l], StepOK n e) (it : List (Reg × ℕ)) (h : ∀ p ∈ it, ∀ q ∈ p.1, q < n)
    (ms : List ℕ) (hms : ms.length = measCount p) (x : ℕ) :
    (sumOutcomes seg fun ks => outcomeProb ⟨p ++ seg ++ [l], n, z, m⟩ it (ms ++ ks ++ [x])) =
      outcomeProb ⟨p ++ [l], n, z, t⟩ it (ms ++ [x]) := by
  induction seg using List.reverseRecOn with
  | nil =>
    simp only [sumOutcomes, List.append_nil]
    rfl
  | append_singleton seg e ih =>
    rw [sumOutcomes_snoc, ← ih (fun e he => hd e (by simp [he])) (fun e he => hp e (by simp only [List.mem_append] at he ⊢; tauto))]
    refine sumOutcomes_congr _ _ _ fun ks hks => ?_
    split
    · rename_i he
      have := C78_measurement ⟨p ++ (seg ++ [e]) ++ [l], n, z, m⟩ ⟨p ++ seg ++ [l], n, z, m⟩ (p ++ seg) [l] e rfl
        (by simp) rfl (by simpa using hd e (by simp)) he hp it h (ms ++ ks) [x]
        (by rw [List.length_append, measCount_append, hms, hks]) (by simp [measCount, hl])
      rw [← this]
      refine Finset.sum_congr rfl fun k _ => ?_
      simp
    · rename_i he
      have := C78_gate ⟨p ++ (seg ++ [e]) ++ [l], n, z, m⟩ ⟨p ++ seg ++ [l], n, z, m⟩ (p ++ seg) [l] e rfl
        (by simp) rfl (by simpa using hd e (by simp)) (by simpa using he) hp it h (ms ++ ks ++ [x])
        (by
          simp only [measCount, List.countP_append, List.length_append, List.countP_cons, List.countP_nil, hl,
            List.length_singleton] at hms hks ⊢
          simp [he]
          omega)
      exact this

theorem session_steps {k : ℕ} {s : NB k} {live : List Reg} (h : Session Apt k s live) (ht : ∀ e ∈ (root s).pipeline, Textbook e) :
    ∀ e ∈ (root s).pipeline, StepOK (root s).n e := by
  intro e he
  obtain ⟨t1, t2, t3⟩ := ht e he
  obtain ⟨h1, h2, h3, h4⟩ := h.sound.placed e he
  have hf := h.apt e he
  cases ho : e.2.object with
  | meas o =>
    cases o with
    | measurement => exact .inr ⟨ho, h2, h3⟩
    | stochastic => exact absurd ho t3
  | unitary u =>
    have hshape : u.Shape e.1.length := by
      obtain ⟨ρ, rfl⟩ | ⟨hs, -⟩ := hf u ho
      · exact t1 ρ ho
      · rw [← h4]; exact hs
    refine .inl ⟨⟨⟨h2, h3, fun v hv => by rw [ho] at hv; cases hv; exact hshape⟩, h4, u, ho, fun ρ e => t2 ρ (e ▸ ho)⟩, fun data hd => ?_⟩
    rw [ho] at hd
    cases hd
    obtain ⟨ρ, e⟩ | ⟨-, hu⟩ := hf _ ho
    · cases e
    · have := hu data rfl
      rw [h4] at this
      exact this

/-- C100: measuring a register `r` gives every outcome with the same probability, no matter whether a function was called before
with other registers (summing over the outcomes of measurements made in that function). -/
theorem C100_no_influence {f : List Reg → M LocalBuilder (List Reg)} (hf : Client Apt 0 f) {s s1 : LocalBuilder} {live : List Reg}
    (hs : Session Apt 0 s live) {rs rest : List Reg} {r : Reg} (hp : live.Perm (rs ++ r :: rest)) (hl : Leaves (k := 0) f rs s s1)
    (ht : ∀ e ∈ s1.pipeline, Textbook e) :
    ∃ seg, s1.pipeline = s.pipeline ++ seg ∧
      ∀ (it : List (Reg × ℕ)), (∀ p ∈ it, ∀ q ∈ p.1, q < s.n) →
      ∀ h2 s2 h2' s2', LocalBuilder.measure r s1 = .ok h2 s2 → LocalBuilder.measure r s = .ok h2' s2' →
      ∀ (ms : List ℕ) (x : ℕ), ms.length = measCount s.pipeline →
        (sumOutcomes seg fun ks => outcomeProb s2 it (ms ++ ks ++ [x])) = outcomeProb s2' it (ms ++ [x]) := by
  have hsound := hs.sound
  have hperm : Sound 0 s (rs ++ r :: rest) :=
    ⟨hsound.own.perm hp.flatten, fun a ha => hsound.nonempty a (hp.mem_iff.mpr ha), hsound.placed⟩
  obtain ⟨hn, seg, hseg, hd⟩ := leaves_spares hf hperm hl
  have hs1 : ∃ live1, Session Apt 0 s1 live1 := by
    rcases hl with ⟨out, he⟩ | he
    · exact ⟨_, .ok hs hf hp he⟩
    · exact ⟨_, .err hs hf hp he⟩
  obtain ⟨live1, hs1⟩ := hs1
  have hst := session_steps hs1 ht
  refine ⟨seg, hseg, ?_⟩
  intro it hit h2 s2 h2' s2' e2 e2' ms x hms
  have hr : r.Nodup ∧ ∀ q ∈ r, q < s.n := by
    have h1 : Own s (rs ++ r :: rest).flatten := hperm.own
    refine ⟨?_, fun q hq => h1.lt q ?_⟩
    · have := h1.left
      rw [List.flatten_append, List.flatten_cons] at this
      exact this.of_append_right.of_append_left
    · simp [hq]
  have hn' : s.n ≤ s1.n := hn
  have hseg' : s1.pipeline = s.pipeline ++ seg := hseg
  have hst' : ∀ e ∈ s1.pipeline, StepOK s1.n e := hst
  have hst0 : ∀ e ∈ s.pipeline, StepOK s.n e := session_steps hs fun e he => ht e (hseg' ▸ List.mem_append_left seg he)
  cases e2
  cases e2'
  have hm := sum_spared s.pipeline seg (r, ⟨r.length, .meas .measurement⟩) s1.n (s1.measurements + 1) (s.measurements + 1)
    s1.zeroedQubits (fun e he q hq hq' => hd e he q hq (by simp [show q ∈ r from hq'])) rfl (by
      intro e he
      rcases List.mem_append.mp he with he | he
      · exact hst' e (hseg' ▸ he)
      · rw [List.mem_singleton.mp he]
        exact .inr ⟨rfl, hr.1, fun q hq => Nat.lt_of_lt_of_le (hr.2 q hq) hn'⟩)
    it (fun p hp q hq => Nat.lt_of_lt_of_le (hit p hp q hq) hn') ms hms x
  rw [← hseg'] at hm
  refine hm.trans ?_
  have hcount : (ms ++ [x]).length = measCount (s.pipeline ++ [(r, ⟨r.length, .meas .measurement⟩)]) := by
    simp [measCount, isMeas] at hms ⊢
    omega
  have hA := C76_born_rule ⟨s.pipeline ++ [(r, ⟨r.length, .meas .measurement⟩)], s1.n, s1.zeroedQubits, s.measurements + 1⟩ it
    (fun p hp q hq => Nat.lt_of_lt_of_le (hit p hp q hq) hn') (by
      intro e he
      rcases List.mem_append.mp he with he | he
      · exact hst' e (hseg' ▸ List.mem_append_left seg he)
      · rw [List.mem_singleton.mp he]
        exact .inr ⟨rfl, hr.1, fun q hq => Nat.lt_of_lt_of_le (hr.2 q hq) hn'⟩) _ hcount
  have hB := C76_born_rule ⟨s.pipeline ++ [(r, ⟨r.length, .meas .measurement⟩)], s.n, s.zeroedQubits, s.measurements + 1⟩ it hit (by
      intro e he
      rcases List.mem_append.mp he with he | he
      · exact hst0 e he
      · rw [List.mem_singleton.mp he]
        exact .inr ⟨rfl, hr⟩) _ hcount
  exact hA.trans hB.symm

/-- two qubits, each in a register -/
theorem two_session : Session Apt 0 (⟨[], 2, [], 0⟩ : LocalBuilder) [[0], [1]] :=
  .ok (k := 0) (rs := [[0, 1]]) (rest := []) (s := (⟨[], 2, [], 0⟩ : LocalBuilder))
    (.ok (k := 0) (rs := []) (rest := []) (s := LocalBuilder.default) .start (.method (.register 2) trivial (by simp [Method.objects]))
      (List.Perm.refl _) (by rfl))
    (.method .splitAll trivial (by simp [Method.objects])) (List.Perm.refl _) (by rfl)

/-- a Hadamard gate on the first of them -/
theorem two_leaves : Leaves (k := 0) (Method.run (.named .h)) [[0]] (⟨[], 2, [], 0⟩ : LocalBuilder)
    (⟨[([0], ⟨1, .unitary .H⟩)], 2, [], 0⟩ : LocalBuilder) := .inl ⟨[[0]], rfl⟩

/-- the hypotheses of `C100_touches` are met -/
example : Client Apt 0 (Method.run (.named .h)) ∧ Sound 0 (⟨[], 2, [], 0⟩ : LocalBuilder) ([[0]] ++ [[1]]) :=
  ⟨.method _ trivial (by simp [Method.objects]), two_session.sound⟩

/-- a gate on the first qubit does not influence the measurement of the second, and neither does a measurement of the first -/
example : ∃ seg, (⟨[([0], ⟨1, .unitary .H⟩)], 2, [], 0⟩ : LocalBuilder).pipeline = [] ++ seg ∧
    ∀ h2 s2 h2' s2', LocalBuilder.measure [1] (⟨[([0], ⟨1, .unitary .H⟩)], 2, [], 0⟩ : LocalBuilder) = .ok h2 s2 →
      LocalBuilder.measure [1] (⟨[], 2, [], 0⟩ : LocalBuilder) = .ok h2' s2' →
      (sumOutcomes seg fun ks => outcomeProb s2 [([1], 1)] ([] ++ ks ++ [1])) = outcomeProb s2' [([1], 1)] ([] ++ [1]) := by
  obtain ⟨seg, h1, h2⟩ := C100_no_influence (f := Method.run (.named .h)) (.method _ trivial (by simp [Method.objects])) two_session
    (rs := [[0]]) (rest := []) (r := [1]) (List.Perm.refl _) two_leaves (by
      intro e he
      rw [List.mem_singleton.mp he]
      exact ⟨by simp, by simp, by simp⟩)
  exact ⟨seg, h1, fun a b c d e f => h2 [([1], 1)] (by simp) a b c d e f [] 1 rfl⟩

example : ∃ seg, (⟨[([0], ⟨1, .meas .measurement⟩)], 2, [], 1⟩ : LocalBuilder).pipeline = [] ++ seg ∧
    ∀ h2 s2 h2' s2', LocalBuilder.measure [1] (⟨[([0], ⟨1, .meas .measurement⟩)], 2, [], 1⟩ : LocalBuilder) = .ok h2 s2 →
      LocalBuilder.measure [1] (⟨[], 2, [], 0⟩ : LocalBuilder) = .ok h2' s2' →
      (sumOutcomes seg fun ks => outcomeProb s2 [([1], 1)] ([] ++ ks ++ [1])) = outcomeProb s2' [([1], 1)] ([] ++ [1]) := by
  obtain ⟨seg, h1, h2⟩ := C100_no_influence (f := LocalMethod.run .measure) (.onLocal _) two_session
    (rs := [[0]]) (rest := []) (r := [1]) (List.Perm.refl _) (.inl ⟨[[0]], rfl⟩) (by
      intro e he
      rw [List.mem_singleton.mp he]
      exact ⟨by simp, by simp, by simp⟩)
  exact ⟨seg, h1, fun a b c d e f => h2 [([1], 1)] (by simp) a b c d e f [] 1 rfl⟩

end Verif.Props
