import Verif.Spec.Main
import Verif.Proofs.Struct
import Verif.Proofs.Runs
import Verif.Props.Examples

/-! # Main programs -/

namespace Verif
open Classical Rooted

theorem blocks_eq (sizes : List ℕ) (n : ℕ) : blocks n sizes = ranges n sizes := by
  induction sizes generalizing n with
  | nil => rfl
  | cons k ks ih => rw [blocks, ranges, ih]

theorem StepOK.mono {n m : ℕ} {e : List ℕ × CObj} (h : StepOK n e) (hnm : n ≤ m) : StepOK m e := by
  rcases h with h | ⟨h1, h2, h3⟩
  · exact Or.inl (h.mono hnm)
  · exact Or.inr ⟨h1, h2, fun q hq => lt_of_lt_of_le (h3 q hq) hnm⟩

theorem isMeas_segU {n : ℕ} {e : List ℕ × CObj} (h : SegU n e) : isMeas e = false := by
  obtain ⟨⟨-, -, u, hu, -⟩, -⟩ := h
  simp [isMeas, hu]

theorem measCount_segU {n : ℕ} {seg : Pipeline} (h : ∀ e ∈ seg, SegU n e) : measCount seg = 0 :=
  List.countP_eq_zero.mpr fun e he => by simp [isMeas_segU (h e he)]

theorem reportW_units (ang : Rot → ℝ) (p q : Pipeline) (h : ∀ e ∈ p, ∃ u, e.2.object = .unitary u) (ms : List ℕ) (ψ : Wave) :
    reportW ang (p ++ q) ms ψ = reportW ang q ms (runW ang p ψ) := by
  induction p generalizing ψ with
  | nil => rfl
  | cons e p ih =>
    obtain ⟨u, hu⟩ := h e (by simp)
    have : reportW ang (e :: (p ++ q)) ms ψ = reportW ang (p ++ q) ms (entryW ang e ψ) := by
      conv_lhs => unfold reportW
      rw [hu]
    rw [List.cons_append, this, ih fun e' he' => h e' (by simp [he'])]
    rfl

theorem Prog.does_free (p : Prog) (s : LocalBuilder) (rs : List Reg) (hp : p.Takes false rs) (ho : Own s rs.flatten) :
    ∃ s1 : LocalBuilder, p.run rs s = .ok rs s1 ∧ Own s1 rs.flatten ∧ Evolves rotAngle s s1 (p.wave false rs) := by
  have hn : rs.flatten.Nodup := (List.nodup_append.mp ho.nodup).1
  have ho' : Own s (([] : List Reg).flatten ++ rs.flatten ++ []) := by rw [List.append_nil]; exact ho
  have hd : Does rotAngle (p.run rs : M LocalBuilder _) s rs (([] : List Reg).flatten ++ rs.flatten ++ []) (p.wave false rs) :=
    ((p.moves 0 [] rfl rs hp hn).does s [] rfl ho').congrU fun x _ => by simp
  obtain ⟨s1, e1, -, o1, v1⟩ := hd
  refine ⟨s1, e1, ?_, v1⟩
  rw [List.append_nil] at o1
  exact o1

/-- the circuit made by the steps -/
structure ActsDo (rs : List Reg) (acts : List Act) (s s' : LocalBuilder) : Prop where
  own : Own s' rs.flatten
  n_le : s.n ≤ s'.n
  meas : s'.measurements = s.measurements + measures acts
  seg : ∃ seg, s'.pipeline = s.pipeline ++ seg ∧ (∀ e ∈ seg, StepOK s'.n e) ∧ measCount seg = measures acts ∧
    ∀ ms, ms.length = measures acts → ∀ ψ, On {x | Clean s x} ψ →
      branchW rotAngle seg ms ψ = actsW rs acts ms ψ ∧ reportW rotAngle seg ms ψ = actsP rs acts ms ψ

theorem acts_do (rs : List Reg) (acts : List Act) (hT : ∀ a ∈ acts, a.Takes rs) (s : LocalBuilder) (ho : Own s rs.flatten) (hs : List ℕ) :
    ∃ s', acts.foldlM (fun s a => a.exec s) (rs, hs) s = .ok (rs, hs ++ List.range' s.measurements (measures acts)) s' ∧ ActsDo rs acts s s' := by
  induction acts generalizing s hs with
  | nil =>
    exact ⟨s, by simp [measures]; rfl, ho, le_refl _, rfl, [], by simp, by simp, rfl, fun ms hm ψ _ => ⟨by rfl, by rfl⟩⟩
  | cons a as ih =>
    have hT' : ∀ a ∈ as, a.Takes rs := fun a ha => hT a (by simp [ha])
    have hn : rs.flatten.Nodup := (List.nodup_append.mp ho.nodup).1
    rw [List.foldlM_cons]
    cases a with
    | run p =>
      have hp : p.Takes false rs := hT (.run p) (by simp)
      obtain ⟨s1, e1, o1, v1⟩ := p.does_free s rs hp ho
      obtain ⟨s2, e2, d⟩ := ih hT' s1 o1 hs
      obtain ⟨seg, g1, g2, g3⟩ := v1.seg
      obtain ⟨seg', f1, f2, f3, f4⟩ := d.seg
      refine ⟨s2, ?_, d.own, le_trans v1.n_le d.n_le, by rw [d.meas, v1.meas]; rfl, seg ++ seg', by rw [f1, g1, List.append_assoc], ?_, ?_, ?_⟩
      · have : Act.exec (.run p) (rs, hs) s = .ok (rs, hs) s1 := by
          show (p.run rs >>= fun rs => pure (rs, hs) : M LocalBuilder _) s = _
          rw [bind_ok e1]
          rfl
        rw [bind_ok this, e2, v1.meas]
        rfl
      · intro e he
        rcases List.mem_append.mp he with he | he
        · exact Or.inl ((g2 e he).mono d.n_le)
        · exact f2 e he
      · have := measCount_segU g2
        unfold measCount at this f3 ⊢
        rw [List.countP_append, this, f3, Nat.zero_add]
        rfl
      · intro ms hm ψ hψ
        have hu : ∀ e ∈ seg, ∃ u, e.2.object = .unitary u := fun e he => by
          obtain ⟨⟨-, -, u, hu, -⟩, -⟩ := g2 e he
          exact ⟨u, hu⟩
        have er : runW rotAngle seg ψ = lift (p.wave false rs) ψ := hψ.agree fun x hx => by rw [(g3 x hx).1, lift_ket]
        have on1 : On {x | Clean s1 x} (lift (p.wave false rs) ψ) := hψ.map _ fun x hx => by
          rw [lift_ket]
          exact on_iff.mpr (g3 x hx).2
        obtain ⟨k1, k2⟩ := f4 ms hm _ on1
        constructor
        · have := branchW_append rotAngle seg seg' [] ms (by rw [measCount_segU g2]; rfl) ψ
          rw [List.nil_append] at this
          rw [this, Props.branchW_units rotAngle seg hu, er, k1]
          rfl
        · rw [reportW_units rotAngle seg seg' hu, er, k2]
          rfl
    | measure i =>
      have hi : i < rs.length := hT (.measure i) (by simp)
      have hg : rs[i]? = some rs[i] := List.getElem?_eq_getElem hi
      have hsub : ∀ q ∈ rs[i], q ∈ rs.flatten := fun q hq => List.mem_flatten.mpr ⟨_, List.getElem_mem hi, hq⟩
      have hnr : rs[i].Nodup := (List.nodup_flatten.mp hn).1 _ (List.getElem_mem hi)
      set s1 : LocalBuilder := { s with pipeline := s.pipeline ++ [(rs[i], ⟨rs[i].length, .meas .measurement⟩)], measurements := s.measurements + 1 } with hs1
      have e1 : Act.exec (.measure i) (rs, hs) s = .ok (rs, hs ++ [s.measurements]) s1 := by
        unfold Act.exec
        simp only [hg]
        have : LocalBuilder.measure rs[i] s = .ok (rs[i], s.measurements) s1 := rfl
        rw [bind_ok this]
        simp only [List.set_getElem_self]
        rfl
      obtain ⟨s2, e2, d⟩ := ih hT' s1 ⟨ho.pool, ho.nodup, ho.lt⟩ (hs ++ [s.measurements])
      obtain ⟨seg', f1, f2, f3, f4⟩ := d.seg
      refine ⟨s2, ?_, d.own, d.n_le, ?_, (rs[i], ⟨rs[i].length, .meas .measurement⟩) :: seg', by rw [f1, hs1]; simp, ?_, ?_, ?_⟩
      · rw [bind_ok e1, e2]
        congr 2
        rw [List.append_assoc]
        rfl
      · rw [d.meas, hs1]
        simp only [measures]
        omega
      · intro e he
        rcases List.mem_cons.mp he with rfl | he
        · exact Or.inr ⟨rfl, hnr, fun q hq => lt_of_lt_of_le (ho.lt q (List.mem_append_left _ (hsub q hq))) d.n_le⟩
        · exact f2 e he
      · unfold measCount at f3 ⊢
        rw [List.countP_cons, f3]
        rfl
      · intro ms hm ψ hψ
        cases ms with
        | nil => simp [measures] at hm
        | cons m ms =>
          have hd : rs.getD i [] = rs[i] := List.getD_eq_getElem _ _ hi
          obtain ⟨k1, k2⟩ := f4 ms (by simpa [measures] using hm) (projW rs[i] m ψ) (hψ.proj _ _)
          constructor
          · rw [branchW_meas _ _ _ _ _ _ _ rfl, k1, actsW, hd]
          · rw [actsP, hd, ← k2]
            rfl

theorem main_does (sizes : List ℕ) (hpos : ∀ k ∈ sizes, 0 < k) (acts : List Act) (hT : ∀ a ∈ acts, a.Takes (blocks 0 sizes)) :
    ∃ s', mainProg sizes acts LocalBuilder.default = .ok (blocks 0 sizes, List.range (measures acts)) s' ∧
      ActsDo (blocks 0 sizes) acts { LocalBuilder.default with n := sizes.sum } s' := by
  have h1 := registers_run sizes hpos LocalBuilder.default
  have hd : LocalBuilder.default.n = 0 := rfl
  rw [hd, Nat.zero_add, ← blocks_eq] at h1
  have ho : Own { LocalBuilder.default with n := sizes.sum } (blocks 0 sizes).flatten := by
    rw [blocks_eq, ranges_flatten, ← List.range_eq_range']
    exact fresh_own _
  obtain ⟨s', e, d⟩ := acts_do (blocks 0 sizes) acts hT _ ho []
  refine ⟨s', ?_, d⟩
  unfold mainProg
  rw [bind_ok h1, e, List.nil_append, List.range_eq_range']
  rfl

end Verif
