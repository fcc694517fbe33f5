import Verif.Proofs.QuietInv
import Verif.Proofs.CondAddInv
import Verif.Spec.Arith

/-! # A generated inverse undoes the circuit, one basis state at a time -/

namespace Verif
open Classical Complex RegOps CircuitBuilder TempBuilder Rooted

theorem runW_low {ang : Rot → ℝ} {p : Pipeline} {k : ℕ} (h : ∀ e ∈ p, ∀ q ∈ e.1, q < k) {z : Asg} (hz : z ∈ Low k) : On (Low k) (runW ang p (ket z)) := by
  refine On.run ang (On.ket hz) p fun e he y hy c i hi => ?_
  rw [writeQ_not_mem _ _ _ _ (fun hm => by have := h e he i hm; omega)]
  exact hy i hi

theorem pull_append (r t : Reg) (x : Asg) (ht : ∀ q ∈ t, x q = false) : pull (r ++ t) x = pull r x := by
  funext i
  unfold pull
  by_cases h : i < r.length
  · rw [if_pos h, if_pos (by simp; omega), List.getD_append _ _ _ _ h]
  · rw [if_neg h]
    by_cases h2 : i < (r ++ t).length
    · rw [if_pos h2, List.getD_append_right _ _ _ _ (by omega)]
      rw [List.length_append] at h2
      refine ht _ ?_
      rw [List.getD_eq_getElem _ _ (by omega)]
      exact List.getElem_mem _
    · rw [if_neg h2]

theorem embW_eq_ket {R : Reg} (hn : R.Nodup) {x y : Asg} {ψ : Wave} (hψ : On (Low R.length) ψ) (hy : ∀ q, q ∉ R → y q = x q) :
    embW R x ψ = ket y ↔ ψ = ket (pull R y) := by
  have e0 : emb R x (pull R y) = y := by
    have := emb_pull R y
    conv_rhs => rw [← this]
    funext q
    by_cases hq : q ∈ R
    · simp [emb, hq]
    · rw [emb_not_mem _ _ _ _ hq, emb_not_mem _ _ _ _ hq, hy q hq]
  constructor
  · intro h
    have h1 : Finsupp.lmapDomain ℂ ℂ (pull R) (embW R x ψ) = ψ := by
      have := hψ.agree (A := (Finsupp.lmapDomain ℂ ℂ (pull R)).comp (embW R x)) (B := LinearMap.id) fun z hz => by
        rw [LinearMap.comp_apply, embW_ket, LinearMap.id_apply]
        unfold ket
        rw [Finsupp.lmapDomain_apply, Finsupp.mapDomain_single, pull_emb R hn]
        congr 1
        funext i
        by_cases hi : i < R.length
        · rw [if_pos hi]
        · rw [if_neg hi]
          exact (hz i (by omega)).symm
      simpa using this
    rw [← h1, h]
    unfold ket
    rw [Finsupp.lmapDomain_apply, Finsupp.mapDomain_single]
  · rintro rfl
    rw [embW_ket, e0]

/-- The inverse of `f` sends `x` to `y` if and only if `f`, in a new builder, sends the values of `y` to those of `x`. -/
theorem invert_sends {f : List Reg → M LocalBuilder (List Reg)} {rs : List Reg} (hne : rs ≠ []) (hr : ∀ r ∈ rs, r ≠ []) {T : Set (Option ℕ)}
    (hq : Quiet [] (f (ranges 0 (rs.map List.length))) (ranges 0 (rs.map List.length)) (ranges 0 (rs.map List.length)).flatten T)
    (hT : none ∈ T ∨ some (rs.flatten.length - 1) ∈ T) {s : LocalBuilder} {L : List ℕ} (ho : Own s (rs.flatten ++ L)) {x y : Asg} (hx : Clean s x)
    (hy : ∀ q, q ∉ rs.flatten → y q = x q) :
    Sends rotAngle (invertFn f rs) s rs x y ↔ Sends rotAngle (f (ranges 0 (rs.map List.length))) ⟨[], rs.flatten.length, [], 0⟩
      (ranges 0 (rs.map List.length)) (pull rs.flatten y) (pull rs.flatten x) := by
  have hpos : ∀ k ∈ rs.map List.length, 0 < k := by
    intro k hk
    simp only [List.mem_map] at hk
    obtain ⟨r, h1, rfl⟩ := hk
    exact List.length_pos_iff.mpr (hr r h1)
  have hfl : rs.flatten ≠ [] := by
    cases rs with
    | nil => exact absurd rfl hne
    | cons r rs => have := hr r (by simp); simp [this]
  have hlen : (rs.map List.length).sum = rs.flatten.length := by rw [List.length_flatten]
  have hfr : (ranges 0 (rs.map List.length)).flatten = List.range' 0 rs.flatten.length := by rw [ranges_flatten, hlen]
  have hown : Own (⟨[], rs.flatten.length, [], 0⟩ : LocalBuilder) (([] : List Reg).flatten ++ (ranges 0 (rs.map List.length)).flatten ++ []) := by
    rw [List.flatten_nil, List.nil_append, List.append_nil, hfr]
    rw [← List.range_eq_range']
    exact fresh_own _
  obtain ⟨b, b1, -, -, -, -, seg, b2, b3, b4, -⟩ := hq ⟨[], rs.flatten.length, [], 0⟩ [] rfl hown
  have hb : b.pipeline = seg := b2
  have hbuild : buildSub (rs.map List.length) f = .ok seg := by
    rw [← hb]
    refine buildSub_ok hpos (a := ranges 0 (rs.map List.length)) ?_
    rw [hlen]
    exact b1
  obtain ⟨p, p1, p2, p3, p4, -, p6⟩ := invertSub_ok (ang := rotAngle) rotAngle_neg' b.n seg fun e he =>
    ⟨(b3 e he).1.1, (b3 e he).1.2.1, (b3 e he).1.2.2.choose, (b3 e he).1.2.2.choose_spec.1⟩
  have p6' := p6 fun e he => (b3 e he).2
  obtain ⟨m, m1, m2⟩ : ∃ m, maxIndex seg = some m ∧ rs.flatten.length ≤ m + 1 := by
    rcases hT with hT | hT
    · obtain ⟨e, he, q, h1, h2⟩ := b4 _ hT
      rw [List.flatten_nil, List.nil_append, List.append_nil, hfr, List.mem_range'_1] at h2
      obtain ⟨m, m1, m2⟩ := maxIndex_of_touched ⟨e, he, h1⟩
      exact ⟨m, m1, by omega⟩
    · obtain ⟨m, m1, m2⟩ := maxIndex_of_touched (b4 _ hT)
      exact ⟨m, m1, by omega⟩
  rw [← maxIndex_congr p seg p4] at m1
  have hlt : ∀ e ∈ p, ∀ i ∈ e.1, i ≤ m := ((maxIndex_iff p m).mp m1).2
  obtain ⟨t, s', k1, k2, k3, k4, k5, -, -, -, -, -, k6⟩ := applySub_local hfl m1 m2
    (fun e he => ⟨segOK_ne (p3 b3 e he), (p3 b3 e he).1.1.1, (p3 b3 e he).1.2.1⟩) ho
  have hR : (rs.flatten ++ t).Nodup := (List.nodup_append.mp k3).1
  have hRl : (rs.flatten ++ t).length = m + 1 := by simp [k2]; omega
  have hltR : ∀ e ∈ p, ∀ i ∈ e.1, i < (rs.flatten ++ t).length := fun e he i hi => by have := hlt e he i hi; omega
  have hxt : ∀ q ∈ t, x q = false := (k6 x hx).1
  have hyt : ∀ q ∈ t, y q = false := fun q hq => by
    rw [hy q fun hm => (List.disjoint_of_nodup_append hR) hm hq]
    exact hxt q hq
  have h1 := (inverter_of hne hr ((List.nodup_append.mp hR).1) hbuild p1 (β := LocalBuilder) k1).2
  have e1 : runW rotAngle (rename (rs.flatten ++ t) p) (ket x) = ket y ↔ runW rotAngle p (ket (pull rs.flatten x)) = ket (pull rs.flatten y) := by
    rw [rename_ket rotAngle _ hR p fun e he => ⟨(p3 b3 e he).1.1.1, hltR e he⟩,
      embW_eq_ket hR (runW_low hltR (pull_low _ _)) fun q hq => hy q fun hm => hq (by simp [hm]), pull_append _ _ _ hxt, pull_append _ _ _ hyt]
  have e2 : runW rotAngle p (ket (pull rs.flatten x)) = ket (pull rs.flatten y) ↔ runW rotAngle seg (ket (pull rs.flatten y)) = ket (pull rs.flatten x) := by
    constructor
    · intro h
      rw [← h]
      exact (p6' _).2
    · intro h
      rw [← h]
      exact (p6' _).1
  constructor
  · rintro ⟨s2, sg, g1, g2, g3⟩
    rw [h1] at g1
    injection g1 with _ g1
    subst g1
    obtain rfl := List.append_cancel_left (k5.symm.trans g2)
    exact ⟨b, seg, b1, b2, e2.mp (e1.mp g3)⟩
  · rintro ⟨s2, sg, g1, g2, g3⟩
    rw [b1] at g1
    injection g1 with _ g1
    subst g1
    obtain rfl := List.append_cancel_left (b2.symm.trans g2)
    exact ⟨s', _, h1, k5, e1.mpr (e2.mpr g3)⟩

end Verif
