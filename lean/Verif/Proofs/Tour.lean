import Verif.Spec.Tour
import Verif.Proofs.Loose
import Verif.Proofs.Main
import Verif.Props.Born
import Mathlib.Data.List.InsertIdx

/-! # Main programs that look at the state -/

namespace Verif
open Classical Rooted

theorem calculates_root : (k : ℕ) → (s : NB k) → (it : List (Reg × ℕ)) → (rnds : ℕ → ℝ) →
    Calculates.calculateWithInit s it rnds = (root s).calculateStateWithInit it rnds
  | 0, _, _, _ => rfl
  | k + 1, s, it, rnds => calculates_root k (Conditioned.parent (β := NB k) s) it rnds

theorem measured_append (a b : List Event) : measured (a ++ b) = measured a + measured b := by
  induction a with
  | nil => simp [measured]
  | cons e a ih => cases e <;> simp only [List.cons_append, measured, ih] <;> omega

theorem looked_append (a b : List Event) : looked (a ++ b) = looked a + looked b := by
  induction a with
  | nil => simp [looked]
  | cons e a ih => cases e <;> simp only [List.cons_append, looked, ih] <;> omega

theorem eventsW_append (a b : List Event) (ms ks : List ℕ) (hm : ms.length = measured a) (ψ : Wave) :
    eventsW (a ++ b) (ms ++ ks) ψ = eventsW b ks (eventsW a ms ψ) := by
  induction a generalizing ms ψ with
  | nil => rw [List.length_eq_zero_iff.mp hm]; rfl
  | cons e a ih =>
    cases e with
    | move U => exact ih ms hm _
    | look it rnds => exact ih ms hm _
    | meas r => cases ms with
      | nil => simp [measured] at hm
      | cons m ms => exact ih ms (by simpa [measured] using hm) _

theorem eventsP_append (a b : List Event) (ms ks : List ℕ) (hm : ms.length = measured a) (ψ : Wave) :
    eventsP (a ++ b) (ms ++ ks) ψ = eventsP a ms ψ ++ eventsP b ks (eventsW a ms ψ) := by
  induction a generalizing ms ψ with
  | nil => rw [List.length_eq_zero_iff.mp hm]; rfl
  | cons e a ih =>
    cases e with
    | move U => exact ih ms hm _
    | look it rnds => exact ih ms hm _
    | meas r => cases ms with
      | nil => simp [measured] at hm
      | cons m ms => exact congrArg (_ :: ·) (ih ms (by simpa [measured] using hm) _)

/-- the circuit made so far, on a builder that began as `s₀`, does the events -/
structure Follows (s₀ : LocalBuilder) (es : List Event) (b : LocalBuilder) : Prop where
  n_le : s₀.n ≤ b.n
  meas : b.measurements = measured es
  ok : ∀ e ∈ b.pipeline, StepOK b.n e
  count : measCount b.pipeline = measured es
  run : ∀ ms, ms.length = measured es → ∀ ψ, On {x | Clean s₀ x} ψ →
    branchW rotAngle b.pipeline ms ψ = eventsW es ms ψ ∧ reportW rotAngle b.pipeline ms ψ = eventsP es ms ψ ∧ On {x | Clean b x} (eventsW es ms ψ)

theorem Follows.look {s₀ : LocalBuilder} {es : List Event} {b : LocalBuilder} (h : Follows s₀ es b) (it : List (Reg × ℕ)) (rnds : ℕ → ℝ) :
    Follows s₀ (es ++ [.look it rnds]) b := by
  have hm : measured (es ++ [.look it rnds]) = measured es := by rw [measured_append]; rfl
  refine ⟨h.n_le, by rw [hm, h.meas], h.ok, by rw [hm, h.count], fun ms hl ψ hψ => ?_⟩
  rw [hm] at hl
  have e1 := eventsW_append es [.look it rnds] ms [] hl ψ
  have e2 := eventsP_append es [.look it rnds] ms [] hl ψ
  rw [List.append_nil] at e1 e2
  rw [e1, e2]
  simp only [eventsW, eventsP, List.append_nil]
  exact h.run ms hl ψ hψ

theorem Follows.move {s₀ : LocalBuilder} {es : List Event} {b b' : LocalBuilder} {U : Asg → Wave} (h : Follows s₀ es b) (hv : Evolves rotAngle b b' U) :
    Follows s₀ (es ++ [.move U]) b' := by
  have hm : measured (es ++ [.move U]) = measured es := by rw [measured_append]; rfl
  obtain ⟨seg, g1, g2, g3⟩ := hv.seg
  refine ⟨le_trans h.n_le hv.n_le, by rw [hm, hv.meas, h.meas], ?_, ?_, fun ms hl ψ hψ => ?_⟩
  · intro e he
    rw [g1] at he
    rcases List.mem_append.mp he with he | he
    · exact (h.ok e he).mono hv.n_le
    · exact Or.inl (g2 e he)
  · have h1 := measCount_segU g2
    have h2 := h.count
    unfold measCount at h1 h2 ⊢
    rw [g1, List.countP_append, h1, h2, hm, Nat.add_zero]
  · rw [hm] at hl
    have hu : ∀ e ∈ seg, ∃ u, e.2.object = .unitary u := fun e he => by
      obtain ⟨⟨-, -, u, hu, -⟩, -⟩ := g2 e he
      exact ⟨u, hu⟩
    obtain ⟨k1, k2, k3⟩ := h.run ms hl ψ hψ
    have e1 := eventsW_append es [.move U] ms [] hl ψ
    have e2 := eventsP_append es [.move U] ms [] hl ψ
    have b1 := branchW_append rotAngle b.pipeline seg ms [] (by rw [h.count, hl]) ψ
    have b2 := reportW_append rotAngle b.pipeline seg ms [] (by rw [h.count, hl]) ψ
    rw [List.append_nil] at e1 e2 b1 b2
    have er : runW rotAngle seg (eventsW es ms ψ) = lift U (eventsW es ms ψ) := k3.agree fun x hx => by rw [(g3 x hx).1, lift_ket]
    have hr : reportW rotAngle seg [] (eventsW es ms ψ) = [] := by
      have := reportW_units rotAngle seg [] hu [] (eventsW es ms ψ)
      rw [List.append_nil] at this
      rw [this]; rfl
    rw [e1, e2, g1, b1, b2, k1, k2, hr]
    simp only [eventsW, eventsP, lift_eq]
    refine ⟨by rw [Props.branchW_units rotAngle seg hu, er], by simp, k3.map _ fun x hx => ?_⟩
    rw [lift_ket]
    exact on_iff.mpr (g3 x hx).2

theorem Follows.measure {s₀ : LocalBuilder} {es : List Event} {b : LocalBuilder} (h : Follows s₀ es b) (r : Reg) (hn : r.Nodup) (hr : ∀ q ∈ r, q < b.n) :
    Follows s₀ (es ++ [.meas r]) { b with pipeline := b.pipeline ++ [(r, ⟨r.length, .meas .measurement⟩)], measurements := b.measurements + 1 } := by
  have hm : measured (es ++ [.meas r]) = measured es + 1 := by rw [measured_append]; rfl
  refine ⟨h.n_le, by rw [hm, h.meas], ?_, ?_, fun ms hl ψ hψ => ?_⟩
  · intro e he
    rcases List.mem_append.mp he with he | he
    · exact h.ok e he
    · obtain rfl := List.mem_singleton.mp he
      exact Or.inr ⟨rfl, hn, hr⟩
  · have h2 := h.count
    unfold measCount at h2 ⊢
    rw [List.countP_append, h2, hm]
    rfl
  · rw [hm] at hl
    rcases List.eq_nil_or_concat ms with rfl | ⟨ms, m, rfl⟩
    · simp at hl
    · rw [List.concat_eq_append] at hl ⊢
      have hl' : ms.length = measured es := by simpa using hl
      obtain ⟨k1, k2, k3⟩ := h.run ms hl' ψ hψ
      rw [eventsW_append es _ ms _ hl', eventsP_append es _ ms _ hl', branchW_append _ _ _ ms _ (by rw [h.count, hl']),
        reportW_append _ _ _ ms _ (by rw [h.count, hl']), k1, k2, branchW_meas _ _ _ _ _ _ _ rfl]
      simp only [eventsW, eventsP]
      exact ⟨rfl, rfl, k3.proj _ _⟩

theorem Follows.shows {s₀ : LocalBuilder} {es : List Event} {b : LocalBuilder} (h : Follows s₀ es b) (h0 : s₀.zeroedQubits = []) (it : List (Reg × ℕ))
    (hi : ∀ p ∈ it, ∀ q ∈ p.1, q < s₀.n) (rnds : ℕ → ℝ) (hr : ∀ k, 0 < rnds k ∧ rnds k < 1) :
    ∃ c, b.calculateStateWithInit it rnds = some c ∧ Shows s₀.n es it c := by
  obtain ⟨v, l, ms, a1, a2, a3, a4, a5, a6⟩ := Props.C76_state b it (fun p hp q hq => lt_of_lt_of_le (hi p hp q hq) h.n_le) h.ok rnds hr
  rw [h.count] at a2 a3
  have hc : On {x | Clean s₀ x} (ket (initAsg it)) := by
    refine On.ket ?_
    rintro q (hq' | hq')
    · rw [h0] at hq'; cases hq'
    · unfold initAsg
      refine decide_eq_false ?_
      rintro ⟨p, hp, k, hk, -⟩
      exact absurd hq' (not_le.mpr (hi p hp q (List.mem_of_getElem? hk)))
  obtain ⟨k1, k2, -⟩ := h.run ms a3 _ hc
  rw [k1] at a5 a6
  rw [k2] at a4
  exact ⟨(v, l), a1, b.n, ms, h.n_le, a3, a2, a4, a5, a6⟩

/-- the results of the calculations show what happened before them -/
def Looks (n : ℕ) : List Event → List Event → List (List ℂ × List MeasResult) → Prop
  | _, [], ls => ls = []
  | es, .look it rnds :: r, ls => ∃ c ls', ls = c :: ls' ∧ Shows n es it c ∧ Looks n (es ++ [.look it rnds]) r ls'
  | es, .move U :: r, ls => Looks n (es ++ [.move U]) r ls
  | es, .meas q :: r, ls => Looks n (es ++ [.meas q]) r ls

theorem Looks.append {n : ℕ} {a : List Event} : ∀ {es b : List Event} {l l' : List (List ℂ × List MeasResult)}, Looks n es a l → Looks n (es ++ a) b l' →
    Looks n es (a ++ b) (l ++ l') := by
  induction a with
  | nil =>
    intro es b l l' h h'
    rw [show l = [] from h]
    rw [List.append_nil] at h'
    exact h'
  | cons e a ih =>
    intro es b l l' h h'
    have e0 : es ++ e :: a = (es ++ [e]) ++ a := by simp
    rw [e0] at h'
    cases e with
    | move U => exact ih h h'
    | meas r => exact ih h h'
    | look it rnds =>
      obtain ⟨c, ls, rfl, h1, h2⟩ := h
      exact ⟨c, ls ++ l', rfl, h1, ih h2 h'⟩

theorem Looks.at {n : ℕ} {a : List Event} : ∀ {es : List Event} {l : List (List ℂ × List MeasResult)}, Looks n es a l →
    l.length = looked a ∧ ∀ pre it rnds post, a = pre ++ .look it rnds :: post → ∃ c, l[looked pre]? = some c ∧ Shows n (es ++ pre) it c := by
  induction a with
  | nil =>
    intro es l h
    rw [show l = [] from h]
    exact ⟨rfl, fun pre it rnds post e => by simp at e⟩
  | cons e a ih =>
    intro es l h
    cases e with
    | move U =>
      obtain ⟨h1, h2⟩ := ih (es := es ++ [.move U]) h
      refine ⟨h1, fun pre it rnds post e => ?_⟩
      cases pre with
      | nil => cases e
      | cons f pre =>
        injection e with e e'
        subst e
        obtain ⟨c, c1, c2⟩ := h2 pre it rnds post e'
        exact ⟨c, c1, by simpa using c2⟩
    | meas r =>
      obtain ⟨h1, h2⟩ := ih (es := es ++ [.meas r]) h
      refine ⟨h1, fun pre it rnds post e => ?_⟩
      cases pre with
      | nil => cases e
      | cons f pre =>
        injection e with e e'
        subst e
        obtain ⟨c, c1, c2⟩ := h2 pre it rnds post e'
        exact ⟨c, c1, by simpa using c2⟩
    | look it0 rnds0 =>
      obtain ⟨c, ls, rfl, h0, h⟩ := h
      obtain ⟨h1, h2⟩ := ih (es := es ++ [.look it0 rnds0]) h
      refine ⟨congrArg (· + 1) h1, fun pre it rnds post e => ?_⟩
      cases pre with
      | nil =>
        injection e with e e'
        injection e with e e''
        subst e
        exact ⟨c, rfl, by rw [List.append_nil]; exact h0⟩
      | cons f pre =>
        injection e with e e'
        subst e
        obtain ⟨c, c1, c2⟩ := h2 pre it rnds post e'
        exact ⟨c, c1, by simpa using c2⟩

theorem Prog.inside_both (p : Prog) {k : ℕ} (s : NB k) {cs rs : List Reg} (hk : cs.length = k) (hp : p.TakesLoose (decide (k ≠ 0)) rs)
    (hs : ctl s = some cs) (ho : Own (root s) (cs.flatten ++ rs.flatten)) :
    Does rotAngle (p.run rs) s rs (cs.flatten ++ rs.flatten) (p.inside cs rs) := by
  have hn : rs.flatten.Nodup := (List.nodup_append.mp (List.nodup_append.mp ho.nodup).1).2.1
  have ho' : Own (root s) (cs.flatten ++ rs.flatten ++ []) := by rw [List.append_nil]; exact ho
  have h1 := (p.both k cs hk rs hp hn).does s [] hs ho'
  rw [List.append_nil] at h1
  refine h1.congrU fun x _ => ?_
  unfold Prog.inside
  subst hk
  cases cs with
  | nil => rw [if_pos rfl, if_pos (by simp)]; rfl
  | cons c cs => rw [if_neg (show ¬ c :: cs = [] by simp)]; rfl

theorem tour_follows {s₀ : LocalBuilder} (h0 : s₀.zeroedQubits = []) (t : Tour) : ∀ (k : ℕ) (s : NB k) (cs rs : List Reg) (es : List Event), t.Takes (decide (k ≠ 0)) rs →
    cs.length = k → ctl s = some cs → Own (root s) (cs.flatten ++ rs.flatten) → (∀ q ∈ rs.flatten, q < s₀.n) → Follows s₀ es (root s) →
    ∃ s' ls, t.exec k rs s = .ok (rs, List.range' (measured es) (measured (t.events cs rs)), ls) s' ∧ ctl s' = some cs ∧
      Own (root s') (cs.flatten ++ rs.flatten) ∧ Follows s₀ (es ++ t.events cs rs) (root s') ∧ Looks s₀.n es (t.events cs rs) ls := by
  induction t with
  | done =>
    intro k s cs rs es _ _ hs ho _ hf
    exact ⟨s, [], rfl, hs, ho, by simpa [Tour.events] using hf, rfl⟩
  | run p t ih =>
    intro k s cs rs es hT hk hs ho hq hf
    obtain ⟨s1, e1, c1, o1, v1⟩ := p.inside_both s hk hT.1 hs ho
    obtain ⟨s2, ls, e2, c2, o2, f2, l2⟩ := ih k s1 cs rs _ hT.2 hk (c1.trans hs) o1 hq (hf.move v1)
    have hm : measured (es ++ [.move (p.inside cs rs)]) = measured es := by rw [measured_append]; rfl
    rw [hm] at e2
    refine ⟨s2, ls, ?_, c2, o2, by simpa [Tour.events] using f2, l2⟩
    show (p.run rs >>= fun rs => t.exec k rs : M (NB k) _) s = _
    rw [bind_ok e1, e2]
    rfl
  | measure i t ih =>
    intro k s cs rs es hT hk hs ho hq hf
    obtain ⟨hin, hi, hT⟩ := hT
    obtain rfl : k = 0 := by simpa using hin
    have hg : rs[i]? = some rs[i] := List.getElem?_eq_getElem hi
    have hd : rs.getD i [] = rs[i] := List.getD_eq_getElem _ _ hi
    have hn : rs.flatten.Nodup := (List.nodup_append.mp (List.nodup_append.mp ho.nodup).1).2.1
    have hsub : ∀ q ∈ rs[i], q ∈ rs.flatten := fun q hq => List.mem_flatten.mpr ⟨_, List.getElem_mem hi, hq⟩
    have hnr : rs[i].Nodup := (List.nodup_flatten.mp hn).1 _ (List.getElem_mem hi)
    have hf1 := hf.measure rs[i] hnr fun q hq' => lt_of_lt_of_le (hq q (hsub q hq')) hf.n_le
    set s1 : LocalBuilder := { root s with pipeline := (root s).pipeline ++ [(rs[i], ⟨rs[i].length, .meas .measurement⟩)],
                                           measurements := (root s).measurements + 1 } with hs1
    obtain ⟨s2, ls, e2, c2, o2, f2, l2⟩ := ih 0 s1 cs rs _ hT hk hs ⟨ho.pool, ho.nodup, ho.lt⟩ hq hf1
    have hm : measured (es ++ [.meas rs[i]]) = measured es + 1 := by rw [measured_append]; rfl
    rw [hm] at e2
    refine ⟨s2, ls, ?_, c2, o2, by simp only [Tour.events, hd]; simpa only [List.append_assoc, List.singleton_append] using f2, by simp only [Tour.events, hd]; exact l2⟩
    have e1 : LocalBuilder.measure rs[i] s = .ok (rs[i], (root s).measurements) s1 := rfl
    unfold Tour.exec
    simp only [hg]
    rw [bind_ok e1]
    simp only [List.set_getElem_self]
    refine (bind_ok (s := (s1 : NB 0)) e2).trans ?_
    rw [hf.meas]
    rfl
  | look it rnds t ih =>
    intro k s cs rs es hT hk hs ho hq hf
    obtain ⟨h1, h2, hT⟩ := hT
    have hi : ∀ p ∈ lookAt rs it, ∀ q ∈ p.1, q < s₀.n := by
      intro p hp q hq'
      obtain ⟨p0, hp0, rfl⟩ := List.mem_map.mp hp
      simp only [List.getD_eq_getElem _ _ (h1 p0 hp0)] at hq'
      exact hq q (List.mem_flatten.mpr ⟨_, List.getElem_mem _, hq'⟩)
    obtain ⟨c, c1, c2⟩ := hf.shows h0 (lookAt rs it) hi rnds h2
    obtain ⟨s2, ls, e2, k2, o2, f2, l2⟩ := ih k s cs rs _ hT hk hs ho hq (hf.look (lookAt rs it) rnds)
    have hm : measured (es ++ [.look (lookAt rs it) rnds]) = measured es := by rw [measured_append]; rfl
    rw [hm] at e2
    refine ⟨s2, c :: ls, ?_, k2, o2, by simpa [Tour.events] using f2, c, ls, rfl, c2, l2⟩
    unfold Tour.exec
    have eg : (get : M (NB k) (NB k)) s = .ok s s := rfl
    rw [bind_ok eg, calculates_root, c1]
    simp only
    rw [bind_ok e2]
    rfl
  | within i body t ihb iht =>
    intro k s cs rs es hT hk hs ho hq hf
    obtain ⟨hi, hne, hB, hT⟩ := hT
    have hg : rs[i]? = some rs[i] := List.getElem?_eq_getElem hi
    have hd : rs.getD i [] = rs[i] := List.getD_eq_getElem _ _ hi
    rw [hd] at hne
    have hp0 : rs.flatten.Perm (rs[i] ++ (rs.eraseIdx i).flatten) := by
      have := (List.getElem_cons_eraseIdx_perm hi).symm.flatten
      simpa using this
    have hp : (cs.flatten ++ rs.flatten).Perm ((rs[i] :: cs).flatten ++ (rs.eraseIdx i).flatten) := by
      refine (hp0.append_left _).trans ?_
      rw [List.flatten_cons, ← List.append_assoc]
      exact List.perm_append_comm.append_right _
    have hc := conditioned_ctl (β := NB k) hs hne
    obtain ⟨s1, l1, e1, c1, o1, f1, k1⟩ := ihb (k + 1) (⟨s, some rs[i]⟩ : Conditioned (NB k)) (rs[i] :: cs) (rs.eraseIdx i) es (by simpa using hB)
      (by simp [hk]) hc (ho.perm hp) (fun q hq' => hq q (hp0.mem_iff.mpr (List.mem_append_right _ hq'))) hf
    obtain ⟨cr, ps, d1, d2, d3, d4⟩ := ctl_conditioned (β := NB k) (s := s1) c1
    injection d4 with d4 d5
    subst d4 d5
    have ec : Conditioned.conditioned (β := NB k) rs[i] (body.exec (k + 1) (rs.eraseIdx i)) s =
        .ok ((rs.eraseIdx i, List.range' (measured es) (measured (body.events (rs[i] :: cs) (rs.eraseIdx i))), l1), rs[i]) (Conditioned.parent (β := NB k) s1) := by
      unfold Conditioned.conditioned
      rw [e1]
      simp only
      rw [d1]
    obtain ⟨s2, l2, e2, c2, o2, f2, k2⟩ := iht k (Conditioned.parent (β := NB k) s1) cs rs _ hT hk d3 (Own.perm (b := root (Conditioned.parent (β := NB k) s1)) o1 hp.symm) hq f1
    refine ⟨s2, l1 ++ l2, ?_, c2, o2, by simp only [Tour.events, hd]; simpa only [List.append_assoc, List.singleton_append] using f2, by simp only [Tour.events, hd]; exact k1.append k2⟩
    unfold Tour.exec
    simp only [hg]
    rw [bind_ok ec]
    simp only [List.insertIdx_eraseIdx_getElem hi]
    rw [bind_ok e2]
    simp only [Tour.events, hd, measured_append]
    rw [← List.range'_append_1]
    rfl

theorem mainTour_does (sizes : List ℕ) (hpos : ∀ k ∈ sizes, 0 < k) (t : Tour) (hT : t.Takes false (blocks 0 sizes)) :
    ∃ s ls, mainTour sizes t LocalBuilder.default = .ok (blocks 0 sizes, List.range (measured (t.events [] (blocks 0 sizes))), ls) s ∧
      Follows { LocalBuilder.default with n := sizes.sum } (t.events [] (blocks 0 sizes)) s ∧ Looks sizes.sum [] (t.events [] (blocks 0 sizes)) ls := by
  have h1 := registers_run sizes hpos LocalBuilder.default
  have hd : LocalBuilder.default.n = 0 := rfl
  rw [hd, Nat.zero_add, ← blocks_eq] at h1
  have ho : Own { LocalBuilder.default with n := sizes.sum } (blocks 0 sizes).flatten := by
    rw [blocks_eq, ranges_flatten, ← List.range_eq_range']
    exact fresh_own _
  obtain ⟨s, ls, e, -, -, f, l⟩ := tour_follows (s₀ := { LocalBuilder.default with n := sizes.sum }) rfl t 0 ({ LocalBuilder.default with n := sizes.sum } : LocalBuilder)
    [] (blocks 0 sizes) [] hT rfl rfl ho
    (fun q hq => by rw [blocks_eq, ranges_flatten] at hq; simpa using hq)
    ⟨le_refl _, rfl, (by intro e he; cases he), rfl, fun ms hm ψ hψ => ⟨rfl, rfl, hψ⟩⟩
  rw [List.nil_append] at f
  refine ⟨s, ls, ?_, f, l⟩
  unfold mainTour
  refine (bind_ok (f := fun rs => (t.exec 0 rs : M LocalBuilder _)) h1).trans ?_
  rw [List.range_eq_range']
  exact e

end Verif
