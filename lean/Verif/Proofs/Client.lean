import Verif.Spec.Client
import Verif.Proofs.Inverse
import Verif.Proofs.LedgerFns

/-! # Ownership of qubits through whole programs -/

namespace Verif
open RegOps CircuitBuilder Ledger

section
variable {β : Type} [Stock] [Recursive β] [Ledger β] [PassesS β]

theorem keeping_one {m : M β Reg} {r : List Reg} (h : Passes m r fun r => [r]) :
    Passes (do let r ← m; pure [r] : M β (List Reg)) r fun rs => rs :=
  Passes.bind [] h (by qperm) fun _ => Passes.pure _ (by qperm)

theorem keeping_pair {m : M β (Reg × Reg)} {r : List Reg} (h : Passes m r fun p => [p.1, p.2]) :
    Passes (do let p ← m; pure [p.1, p.2] : M β (List Reg)) r fun rs => rs :=
  Passes.bind [] h (by qperm) fun _ => Passes.pure _ (by qperm)

theorem passes_splitAbs (r : Reg) (idx : List ℕ) (h : idx.Nodup) : Passes (splitAbs r idx : M β _) [r] fun x => x.regs :=
  PassesR.splitRel r _ (find_filterMap_nodup r idx h)

theorem passes_qudit (n : ℕ) : Passes (qudit n : M β _) [] fun o => o.toList := by
  unfold qudit
  split
  · exact Passes.pure _ (by qperm)
  · exact Passes.bind [] (PassesR.register n) (by qperm) fun _ => Passes.pure _ (by qperm)

theorem passes_named (g : Named) (r : Reg) : Passes (g.runOn r : M β _) [r] fun r => [r] := by
  cases g
  case sDagger => exact passes_sDagger r
  case tDagger => exact passes_tDagger r
  all_goals exact passes_gate _ r

/-- a method given a matrix -/
theorem passes_matrix (r : Reg) (n : ℕ) (data : List ℂ) (h : Stock.Given ⟨n, .unitary (.MAT data)⟩) (hr : r.length = n) :
    Passes (applyCO r (CliffordT.vecMatrixToCO β r.length data) : M β Reg) [r] fun r => [r] := by
  rw [PassesT.mat, hr]
  exact PassesT.applyCO r _ h

theorem keeping_method (m : Method) (hm : m.NoRepeat) (ho : ∀ c ∈ m.objects, Stock.Given c) : Keeping (m.run : List Reg → M β _) := by
  intro rs
  unfold Method.run
  split
  case h_1 => exact (keeping_one (PassesR.register _)).mono (by qperm) fun _ => List.Subperm.refl _
  case h_2 => exact Passes.bind [] (passes_qudit _) (by qperm) fun _ => Passes.pure _ (by qperm)
  case h_3 => exact (keeping_one (PassesR.mergeTwo _ _))
  case h_4 => exact Passes.bind [] (passes_mergeRegisters _) (by qperm) fun _ => Passes.pure _ (by qperm)
  case h_5 => exact Passes.bind [] (PassesR.splitRel _ _ hm) (by qperm) fun _ => Passes.pure _ (by qperm)
  case h_6 => exact Passes.bind [] (passes_splitAbs _ _ hm) (by qperm) fun _ => Passes.pure _ (by qperm)
  case h_7 => exact (passes_splitAll _)
  case h_8 => exact Passes.bind [] (passes_splitFirst _) (by qperm) fun _ => Passes.pure _ (by qperm)
  case h_9 => exact Passes.bind [] (passes_splitLast _) (by qperm) fun _ => Passes.pure _ (by qperm)
  case h_10 => exact Passes.bind [] (passes_splitGroups _ _) (by qperm) fun _ => Passes.pure _ (by qperm)
  case h_11 => exact keeping_one (PassesT.applyCO _ _ (ho _ (by simp [Method.objects])))
  case h_12 =>
    split
    · exact keeping_one (passes_matrix _ _ _ (ho _ (List.mem_singleton.mpr rfl)) ‹_›)
    · exact Passes.throw _
  case h_13 =>
    split
    · exact keeping_one (passes_matrix _ _ _ (ho _ (List.mem_singleton.mpr rfl)) ‹_›)
    · exact Passes.throw _
  case h_14 =>
    split
    · exact keeping_one (passes_matrix _ _ _ (ho _ (List.mem_singleton.mpr rfl)) ‹_›).unwrapM
    · exact Passes.throw _
  case h_15 => exact (keeping_one (passes_named _ _))
  case h_16 => exact (keeping_pair (passes_cnot _ _))
  case h_17 => exact (keeping_pair (passes_swap _ _))
  case h_18 => exact (keeping_pair (passes_basicToffoli _ _))
  case h_19 => exact (keeping_pair (passes_toffoli _ _))
  case h_20 => exact (keeping_one (PassesC.rz _ _))
  case h_21 => exact (keeping_one (PassesC.rx _ _))
  case h_22 => exact (keeping_one (PassesC.ry _ _))
  case h_23 => exact (keeping_one (PassesC.rzRatio _ _))
  case h_24 => exact (keeping_one (PassesC.rxRatio _ _))
  case h_25 => exact (keeping_one (PassesC.ryRatio _ _))
  case h_26 => exact (keeping_one (PassesC.rzPiBy _ _))
  case h_27 => exact (keeping_one (PassesC.rxPiBy _ _))
  case h_28 => exact (keeping_one (PassesC.ryPiBy _ _))
  case h_29 => exact (keeping_one PassesT.makeTemp).mono (by qperm) fun _ => List.Subperm.refl _
  case h_30 => exact (keeping_one (passes_makeTempRegister _)).mono (by qperm) fun _ => List.Subperm.refl _
  case h_31 => exact Passes.bind [] (PassesT.returnTemp _) (by qperm) fun _ => Passes.pure _ (by qperm)
  case h_32 => exact (keeping_pair (PassesC.tryCond _ _ _))
  case h_33 =>
    have sub := fun e he => ho (Prod.snd e) (List.mem_map_of_mem he)
    exact (keeping_one (PassesS.applySub _ _ sub))
  case h_34 =>
    have sub := fun e he => ho (Prod.snd e) (List.mem_map_of_mem he)
    exact (keeping_one (passes_applyInverted _ (fun e he => Stock.given (sub e he)) _))
  case h_35 =>
    have sub := fun e he => ho (Prod.snd e) (List.mem_map_of_mem he)
    exact (keeping_pair (PassesS.applyCondSub _ _ _ sub))
  case h_36 => exact (keeping_one (passes_negateBitmask _ _))
  case h_37 => exact (keeping_one (passes_qfft _))
  case h_38 => exact keeping_sum _
  case h_39 => exact keeping_carry _
  case h_40 => exact keeping_invertFn keeping_carry _
  case h_41 => exact keeping_add _
  case h_42 => exact keeping_invertFn keeping_add _
  case h_43 => exact keeping_addMod _
  case h_44 => exact keeping_invertFn keeping_addMod _
  case h_45 => exact keeping_rshift _
  case h_46 => exact keeping_invertFn keeping_rshift _
  case h_47 => exact keeping_copy _
  case h_48 => exact keeping_invertFn keeping_copy _
  case h_49 => exact keeping_timesMod _
  case h_50 => exact keeping_invertFn keeping_timesMod _
  case h_51 => exact keeping_squareMod _
  case h_52 => exact keeping_invertFn keeping_squareMod _
  case h_53 => exact keeping_expMod _
  case h_54 => exact keeping_invertFn keeping_expMod _
  case h_55 => exact Passes.throw _

end

theorem keeping_localMethod [Stock] (m : LocalMethod) : Keeping m.run := by
  intro rs
  unfold LocalMethod.run
  split
  · exact Passes.bind [] (LocalBuilder.passes_measure _) (by qperm) fun _ => Passes.pure _ (by qperm)
  · exact Passes.bind [] (LocalBuilder.passes_measureStochastic _) (by qperm) fun _ => Passes.pure _ (by qperm)
  · exact (keeping_one (LocalBuilder.passes_globalPhase _ _))
  · exact (keeping_one (LocalBuilder.passes_globalPhaseRatio _ _))
  · exact (keeping_one (LocalBuilder.passes_globalPhasePiBy _ _))
  · exact Passes.throw _

theorem NB.left_iff [Stock] : (k : ℕ) → (s : NB k) → (L : List Reg) → (Left s L ↔ Holds s L)
  | 0, _, _ => Iff.rfl
  | k + 1, s, L => NB.left_iff k (Conditioned.parent (β := NB k) s) ((Conditioned.cr (β := NB k) s).toList ++ L)

theorem NB.scraps_iff [Stock] : (k : ℕ) → (s s' : NB k) → (L : List Reg) → (Scraps s s' L ↔ Spares s s' L)
  | 0, _, _, _ => Iff.rfl
  | k + 1, s, s', L => NB.scraps_iff k (Conditioned.parent (β := NB k) s) (Conditioned.parent (β := NB k) s') L

theorem Client.keeping [Stock] {ok : CObj → Prop} (hok : ∀ c, ok c → Stock.Given c) {k : ℕ} {f : List Reg → M (NB k) (List Reg)}
    (h : Client ok k f) : Keeping f := by
  induction h with
  | method m hm ho => exact keeping_method m hm fun c hc => hok c (ho c hc)
  | onLocal m => exact keeping_localMethod m
  | keep σ h => exact fun rs => Passes.pure _ (h rs)
  | seq _ _ ihf ihg => exact fun rs => Passes.bind [] (ihf rs) (by qperm) fun a => (ihg a).mono (by qperm) fun _ => List.Subperm.refl _
  | on σ h _ ih =>
    intro rs
    exact Passes.bind (σ rs).2 (ih (σ rs).1) (h rs).subperm fun a => Passes.pure _ (by qperm)
  | choose c _ ih => exact fun rs s L hs => ih (c s rs) rs s L hs
  | recover _ _ ihf ihg =>
    rename_i k f g _ _
    intro rs s L hs
    obtain ⟨ho, he⟩ := ihf rs s L hs
    dsimp only
    rcases hfs : f rs s with ⟨a, s1⟩ | ⟨_ | _, s1⟩
    · exact ⟨fun a' s' h => (by cases h; exact ho _ _ hfs), fun s' h => (by cases h)⟩
    · obtain ⟨h1, h2⟩ := ihg [] s1 L ((NB.left_iff k s1 L).mp (he _ hfs).1)
      have hsp := (NB.scraps_iff k s s1 L).mp (he _ hfs).2
      exact ⟨fun a s' h => ⟨(h1 a s' h).1, spares_trans hsp (h1 a s' h).2⟩,
        fun s' h => ⟨(h2 s' h).1, scraps_trans hsp (h2 s' h).2⟩⟩
    · exact ⟨fun a' s' h => (by cases h), fun s' h => (by cases h)⟩
  | cond _ ih =>
    rename_i k f _
    intro rs
    cases rs with
    | nil => exact Passes.throw _
    | cons cr rs =>
      refine Passes.bind [] (Conditioned.passes_conditioned (β := NB k) (ih rs) cr) (by qperm) ?_
      rintro ⟨out, cr⟩
      exact Passes.pure _ (by qperm)
  | prog lines _ _ ihp ihc =>
    intro rs
    refine passes_program rs lines ?_
    rintro (⟨f, gs⟩ | ⟨mask, f, gs⟩) hl
    · exact ihp f gs hl
    · exact ihc mask f gs hl
  | invert _ ih => exact keeping_invertFn ih
  | inverter _ ih => exact keeping_inverter ih

/-- what is held is held by the innermost builder or in conditions -/
theorem holds_iff [Stock] : (k : ℕ) → (s : NB k) → (L : List Reg) →
    (Holds s L ↔ Sound k s L ∧ ∀ e ∈ (Rooted.root s).pipeline, Stock.Ok e.2)
  | 0, s, L => by
    constructor
    · rintro ⟨h1, h2, h3⟩
      exact ⟨⟨h1, h2, fun e he => ⟨(h3 e he).1, (h3 e he).2.1, (h3 e he).2.2.1, (h3 e he).2.2.2.1⟩⟩, fun e he => (h3 e he).2.2.2.2⟩
    · rintro ⟨⟨h1, h2, h3⟩, h4⟩
      exact ⟨h1, h2, fun e he => ⟨(h3 e he).1, (h3 e he).2.1, (h3 e he).2.2.1, (h3 e he).2.2.2, h4 e he⟩⟩
  | k + 1, s, L => by
    have ih := holds_iff k (Conditioned.parent (β := NB k) s) ((Conditioned.cr (β := NB k) s).toList ++ L)
    have e : Holds s L ↔ Holds (Conditioned.parent (β := NB k) s) ((Conditioned.cr (β := NB k) s).toList ++ L) := Iff.rfl
    rw [e, ih]
    have hp : (NB.conds k (Conditioned.parent (β := NB k) s) ++ ((Conditioned.cr (β := NB k) s).toList ++ L)).Perm
        (NB.conds (k + 1) s ++ L) := by
      have : NB.conds (k + 1) s = (Conditioned.cr (β := NB k) s).toList ++ NB.conds k (Conditioned.parent (β := NB k) s) := rfl
      rw [this, ← List.append_assoc]
      exact List.perm_append_comm.append_right L
    constructor
    · rintro ⟨⟨h1, h2, h3⟩, h4⟩
      exact ⟨⟨h1.perm hp.flatten, fun r hr => h2 r (hp.mem_iff.mpr hr), h3⟩, h4⟩
    · rintro ⟨⟨h1, h2, h3⟩, h4⟩
      exact ⟨⟨h1.perm hp.flatten.symm, fun r hr => h2 r (hp.mem_iff.mp hr), h3⟩, h4⟩

theorem Session.holds [Stock] {ok : CObj → Prop} (hok : ∀ c, ok c → Stock.Given c) {k : ℕ} {s : NB k} {live : List Reg}
    (h : Session ok k s live) : Holds s live := by
  induction h with
  | start =>
    exact (⟨⟨by simp [LocalBuilder.default], by simp [LocalBuilder.default], by simp [LocalBuilder.default]⟩, by simp,
      by simp [LocalBuilder.default]⟩ : Holds LocalBuilder.default [])
  | ok _ hf hp he ih => exact (hf.keeping hok _ _ _ (sub hp.symm.subperm ih)).1 _ _ he |>.1
  | err _ hf hp he ih => exact (NB.left_iff _ _ _).mp ((hf.keeping hok _ _ _ (sub hp.symm.subperm ih)).2 _ he).1
  | drop _ hp ih => exact sub (List.sublist_cons_self _ _).subperm (sub hp.symm.subperm ih)
  | condition _ hp ih =>
    have h' := sub hp.symm.subperm ih
    exact h'
  | dissolve _ hr ih =>
    rename_i k s live r _
    have h' : Holds s.parent (s.cr.toList ++ live) := ih
    rw [hr] at h'
    exact h'
  | abandon _ ih =>
    rename_i k s live _
    have h' : Holds s.parent (s.cr.toList ++ live) := ih
    exact sub (List.sublist_append_right _ _).subperm h'

/-- every object is allowed -/
def Stock.all : Stock where
  Ok _ := True
  Given _ := True
  given _ := trivial
  x := trivial
  y := trivial
  z := trivial
  h := trivial
  s := trivial
  t := trivial
  cnot := trivial
  rz _ _ _ := trivial
  phase _ _ _ := trivial
  meas _ _ _ := trivial
  invert _ _ _ _ _ _ := trivial
  Silent := False
  silent h := h.elim

theorem apt_basic {n : ℕ} {u : UObj} (h : u.Shape n) (hm : ∀ data, u ≠ .MAT data) : Apt ⟨n, .unitary u⟩ := by
  intro v hv
  cases hv
  exact .inr ⟨h, fun data hd => absurd hd (hm data)⟩

theorem apt_invert (c : CObj) (cs : List CObj) (h : Apt c) (hi : invertObject c = .ok cs) : ∀ c' ∈ cs, Apt c' := by
  obtain ⟨n, o⟩ := c
  cases o with
  | meas k => simp [invertObject] at hi
  | unitary u =>
    have h' := h u rfl
    cases u with
    | MAT data =>
      obtain ⟨ρ, e⟩ | ⟨⟨h1, h2⟩, h3⟩ := h'
      · cases e
      · obtain ⟨d, d1, d2, d3⟩ := daggerData_eq n data h1
        simp only [invertObject, d1, Except.map, Except.ok.injEq] at hi
        subst hi
        intro c' hc'
        simp only [List.map_cons, List.map_nil, List.mem_singleton] at hc'
        subst hc'
        intro v hv
        cases hv
        refine .inr ⟨⟨d2, h2⟩, fun data' e => ?_⟩
        cases e
        exact isUnitary_congr n _ _ (fun i j a b => (d3 i j a b).symm) (isUnitary_dag n _ (h3 data rfl))
    | Rz ρ =>
      simp only [invertObject, Except.map, Except.ok.injEq] at hi
      subst hi
      intro c' hc'
      simp only [List.map_cons, List.map_nil, List.mem_singleton] at hc'
      subst hc'
      intro v hv
      cases hv
      exact .inl ⟨_, rfl⟩
    | _ =>
      simp only [invertObject, Except.map, Except.ok.injEq] at hi
      subst hi
      intro c' hc'
      simp only [List.map_cons, List.map_nil, List.mem_cons, List.not_mem_nil, or_false] at hc'
      obtain ⟨ρ, e⟩ | ⟨h1, -⟩ := h'
      · cases e
      · rcases hc' with rfl | rfl | rfl | rfl <;> exact apt_basic h1 (by simp)

/-- the apt objects -/
def Stock.apt : Stock where
  Ok := Apt
  Given := Apt
  given h := h
  x := apt_basic rfl (by simp)
  y := apt_basic rfl (by simp)
  z := apt_basic rfl (by simp)
  h := apt_basic rfl (by simp)
  s := apt_basic rfl (by simp)
  t := apt_basic rfl (by simp)
  cnot := apt_basic rfl (by simp)
  rz _ _ _ := fun v hv => by cases hv; exact .inl ⟨_, rfl⟩
  phase _ _ h := apt_basic h (by simp)
  meas _ _ _ := fun v hv => by cases hv
  invert := apt_invert
  Silent := False
  silent h := h.elim

/-- every object is allowed, but measurements are only made by measuring -/
def Stock.quiet : Stock where
  Ok _ := True
  Given c := ∀ o, c.object ≠ .meas o
  given _ := trivial
  x _ h := by cases h
  y _ h := by cases h
  z _ h := by cases h
  h _ h := by cases h
  s _ h := by cases h
  t _ h := by cases h
  cnot _ h := by cases h
  rz _ _ _ _ h := by cases h
  phase _ _ _ _ h := by cases h
  meas _ _ _ := trivial
  invert c cs _ hi c' hc' o ho := by
    unfold invertObject at hi
    split at hi
    · cases hi
    · simp only [Except.map] at hi
      split at hi
      · cases hi
      · cases hi
        obtain ⟨u, -, rfl⟩ := List.mem_map.mp hc'
        cases ho
  Silent := True
  silent _ _ h := h

theorem Session.sound {ok : CObj → Prop} {k : ℕ} {s : NB k} {live : List Reg} (h : Session ok k s live) : Sound k s live :=
  letI := Stock.all
  ((holds_iff k s live).mp (h.holds fun _ _ => trivial)).1

theorem Session.apt {k : ℕ} {s : NB k} {live : List Reg} (h : Session Apt k s live) :
    ∀ e ∈ (Rooted.root s).pipeline, Apt e.2 :=
  letI := Stock.apt
  ((holds_iff k s live).mp (h.holds fun _ h => h)).2

end Verif
