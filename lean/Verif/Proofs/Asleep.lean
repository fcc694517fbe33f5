import Verif.Spec.Sleep
import Verif.Proofs.Sleep
import Verif.Proofs.ArithKinds
import Verif.Props.Idle

/-! # Whole programs inside conditions that are not met -/

namespace Verif
open RegOps CircuitBuilder TempBuilder Rooted Ledger Props

/-! ## wrong numbers of registers -/

theorem invertFn_nok {β : Type} [Recursive β] {f : List Reg → M LocalBuilder (List Reg)} {rs : List Reg} (hr : ∀ r ∈ rs, r ≠ [])
    (h : ∀ (rs' : List Reg) (b : LocalBuilder), rs'.length = rs.length → ∀ a b', f rs' b ≠ .ok a b') (s : β) (a : List Reg) (s' : β) :
    invertFn f rs s ≠ .ok a s' := by
  have hpos : ∀ k ∈ rs.map List.length, 0 < k := by
    intro k hk
    obtain ⟨r, h1, rfl⟩ := List.mem_map.mp hk
    exact List.length_pos_iff.mpr (hr r h1)
  have hb : ∀ sc, buildSub (rs.map List.length) f ≠ .ok sc := by
    intro sc
    unfold buildSub
    rw [bind_ok (registers_run (rs.map List.length) hpos LocalBuilder.default)]
    have hlen : (ranges LocalBuilder.default.n (rs.map List.length)).length = rs.length := by
      have := congrArg List.length (ranges_map_length (rs.map List.length) LocalBuilder.default.n)
      simpa using this
    split
    · next e => exact absurd e (h _ _ hlen _ _)
    · simp
  intro he
  unfold invertFn at he
  cases hbs : buildSub (rs.map List.length) f with
  | ok sc => exact hb sc hbs
  | error e => rw [hbs] at he; cases he

section
variable {β : Type} [Recursive β]

theorem copy_nok {rs : List Reg} (h : rs.length ≠ 2) (s : β) (a : List Reg) (s' : β) : Arith.copy rs s ≠ .ok a s' := by
  unfold Arith.copy
  split
  · simp at h
  · simp [throw, throwThe, MonadExceptOf.throw, EStateM.throw]

theorem rshift_nok {rs : List Reg} (h : rs.length ≠ 1) (s : β) (a : List Reg) (s' : β) : Arith.rshift rs s ≠ .ok a s' := by
  unfold Arith.rshift
  split
  · simp at h
  · simp [throw, throwThe, MonadExceptOf.throw, EStateM.throw]

theorem add_nok {rs : List Reg} (h : rs.length ≠ 3) (s : β) (a : List Reg) (s' : β) : Arith.add rs s ≠ .ok a s' := by
  unfold Arith.add
  generalize _ + 1 = k
  unfold Arith.addF
  split
  · simp [throw, throwThe, MonadExceptOf.throw, EStateM.throw]
  · simp at h
  · simp [throw, throwThe, MonadExceptOf.throw, EStateM.throw]

theorem addMod_nok {rs : List Reg} (h : rs.length ≠ 3) (s : β) (a : List Reg) (s' : β) : Arith.addMod rs s ≠ .ok a s' := by
  unfold Arith.addMod
  split
  · simp at h
  · simp [throw, throwThe, MonadExceptOf.throw, EStateM.throw]

theorem timesMod_nok {rs : List Reg} (h : rs.length ≠ 4) (s : β) (a : List Reg) (s' : β) : Arith.timesMod rs s ≠ .ok a s' := by
  unfold Arith.timesMod
  split
  · simp at h
  · simp [throw, throwThe, MonadExceptOf.throw, EStateM.throw]

theorem squareMod_nok {rs : List Reg} (h : rs.length ≠ 3) (s : β) (a : List Reg) (s' : β) : Arith.squareMod rs s ≠ .ok a s' := by
  unfold Arith.squareMod
  split
  · simp at h
  · simp [throw, throwThe, MonadExceptOf.throw, EStateM.throw]

theorem expMod_nok {rs : List Reg} (h : rs.length ≠ 5) (s : β) (a : List Reg) (s' : β) : Arith.expMod rs s ≠ .ok a s' := by
  unfold Arith.expMod
  generalize _ + 1 = k
  unfold Arith.expModF
  split
  · simp [throw, throwThe, MonadExceptOf.throw, EStateM.throw]
  · simp at h
  · simp [throw, throwThe, MonadExceptOf.throw, EStateM.throw]

theorem circ_nok (c : Circ) {rs : List Reg} (hr : ∀ r ∈ rs, r ≠ []) (h : rs.length ≠ c.args) (s : β) (a : List Reg) (s' : β) : c.run rs s ≠ .ok a s' := by
  cases c
  case copy => exact copy_nok h s a s'
  case copyInv => exact invertFn_nok hr (fun rs' b e => copy_nok (e ▸ h) b) s a s'
  case rshift => exact rshift_nok h s a s'
  case lshift => exact invertFn_nok hr (fun rs' b e => rshift_nok (e ▸ h) b) s a s'
  case add => exact add_nok h s a s'
  case addInv => exact invertFn_nok hr (fun rs' b e => add_nok (e ▸ h) b) s a s'
  case addMod => exact addMod_nok h s a s'
  case addModInv => exact invertFn_nok hr (fun rs' b e => addMod_nok (e ▸ h) b) s a s'
  case timesMod => exact timesMod_nok h s a s'
  case timesModInv => exact invertFn_nok hr (fun rs' b e => timesMod_nok (e ▸ h) b) s a s'
  case squareMod => exact squareMod_nok h s a s'
  case squareModInv => exact invertFn_nok hr (fun rs' b e => squareMod_nok (e ▸ h) b) s a s'
  case expMod => exact expMod_nok h s a s'
  case expModInv => exact invertFn_nok hr (fun rs' b e => expMod_nok (e ▸ h) b) s a s'

/-- arithmetic circuits do nothing if a condition is not met -/
theorem circ_sleeps {G : Submonoid ℂ} [Rooted β] [SubSim β] {cs : List Reg} (c : Circ) (hc : c ≠ .lshift) {rs a : List Reg} {L : List ℕ} {s s' : β}
    (hr : ∀ r ∈ rs, r ≠ []) (hs : ctl s = some cs) (ho : Own (root s) (cs.flatten ++ rs.flatten ++ L)) (h : c.run rs s = .ok a s') :
    Rests G (Idle cs) (root s) (root s') := by
  by_cases h0 : rs.length = c.args
  · by_cases hf : c.Fits (rs.map List.length)
    · exact ((circ_quiet c rs hr hf).sleeps hs ho h).2
    · rw [circ_err s c rs hc h0 hr hf] at h
      cases h
  · exact absurd h (circ_nok c hr h0 s a s')

end

/-! ## methods -/

theorem keep1 {β : Type} [Ledger β] {m : M β Reg} {r : List Reg} (h : Passes m r fun r => [r]) :
    Passes (do let r ← m; pure [r] : M β (List Reg)) r fun rs => rs :=
  Passes.bind [] h (by qperm) fun _ => Passes.pure _ (by qperm)

theorem keep2 {β : Type} [Ledger β] {m : M β (Reg × Reg)} {r : List Reg} (h : Passes m r fun p => [p.1, p.2]) :
    Passes (do let p ← m; pure [p.1, p.2] : M β (List Reg)) r fun rs => rs :=
  Passes.bind [] h (by qperm) fun _ => Passes.pure _ (by qperm)

/-- the methods for registers and the gates made of CNOT and gates for one qubit -/
def Method.Light : Method → Prop
  | .register _ | .qudit _ | .merge | .mergeMany | .split _ | .splitAbs _ | .splitAll | .splitFirst | .splitLast | .splitGroups _
  | .named _ | .cnot | .swap | .basicToffoli | .negateBitmask _ => True
  | _ => False

theorem keeping_light {β : Type} [Recursive β] [Ledger β] [PassesA β] (m : Method) (hl : m.Light) (hm : m.NoRepeat) : Keeping (m.run : List Reg → M β _) := by
  intro rs
  unfold Method.run
  split
  case h_1 => exact (keep1 (PassesR.register _)).mono (by qperm) fun _ => List.Subperm.refl _
  case h_2 n =>
    have hq : Passes (qudit n : M β _) [] fun o => o.toList := by
      unfold qudit
      split
      · exact Passes.pure _ (by qperm)
      · exact Passes.bind [] (PassesR.register _) (by qperm) fun _ => Passes.pure _ (by qperm)
    exact Passes.bind [] hq (by qperm) fun _ => Passes.pure _ (by qperm)
  case h_3 => exact (keep1 (PassesR.mergeTwo _ _))
  case h_4 => exact Passes.bind [] (passes_mergeRegisters _) (by qperm) fun _ => Passes.pure _ (by qperm)
  case h_5 => exact Passes.bind [] (PassesR.splitRel _ _ hm) (by qperm) fun _ => Passes.pure _ (by qperm)
  case h_6 => exact Passes.bind [] (PassesR.splitRel _ _ (find_filterMap_nodup _ _ hm)) (by qperm) fun _ => Passes.pure _ (by qperm)
  case h_7 => exact (passes_splitAll _)
  case h_8 => exact Passes.bind [] (passes_splitFirst _) (by qperm) fun _ => Passes.pure _ (by qperm)
  case h_9 => exact Passes.bind [] (passes_splitLast _) (by qperm) fun _ => Passes.pure _ (by qperm)
  case h_10 => exact Passes.bind [] (passes_splitGroups _ _) (by qperm) fun _ => Passes.pure _ (by qperm)
  case h_15 g r =>
    refine keep1 ?_
    cases g
    case sDagger => exact passes_sDagger _
    case tDagger => exact passes_tDagger _
    all_goals exact passes_gate _ _
  case h_16 => exact (keep2 (passes_cnot _ _))
  case h_17 => exact (keep2 (passes_swap _ _))
  case h_18 => exact (keep2 (passes_basicToffoli _ _))
  case h_36 => exact (keep1 (passes_negateBitmask _ _))
  case h_55 => exact Passes.throw _
  all_goals exact hl.elim

theorem passes_temps {β : Type} [TempBuilder β] [Ledger β] [PassesR β] (h : Passes (makeTempQubit : M β Reg) [] fun r => [r]) (n : ℕ) :
    Passes (makeTempRegister n : M β _) [] fun r => [r] := by
  refine Passes.bind [] ((Passes.mapM (fun _ => []) (fun r : Reg => [r]) (List.range n) fun _ _ => h).mono
    (pre' := []) ?_ fun _ => List.Subperm.refl _) (by qperm) fun rs => ?_
  · rw [map_nil_flatten]
  · refine Passes.bind [] (passes_mergeRegisters rs) (by rw [map_one_flatten, List.append_nil]) fun m => ?_
    exact (passes_unwrap m).mono (by qperm) fun _ => List.Subperm.refl _

theorem keep_x {β : Type} [Recursive β] [Ledger β] (h : PassesA β) : Keeping (op1 Gate.x : List Reg → M β _) :=
  keeping_op1 fun r => passes_gate _ r

section
variable {G : Submonoid ℂ} {β : Type} [Stock] [Recursive β] [Rooted β] [Ledger β] [PassesS β] [GrownS β] [SubSim β] [SleepyS G β]

theorem passes_matrix_doze (r : Reg) (n : ℕ) (data : List ℂ) (h : Stock.Given ⟨n, .unitary (.MAT data)⟩) (hr : r.length = n) :
    @Passes β _ (doze G β) (applyCO r (CliffordT.vecMatrixToCO β r.length data)) [r] fun r => [r] := by
  rw [PassesT.mat, hr]
  exact passes_object_doze r _ h (calms_of (by simp))

variable (G) in
theorem keeping_sum_doze : @Keeping β (doze G β) Arith.sum := by
  intro rs
  unfold Arith.sum
  split
  · refine @passes_lines β _ (doze G β) (passesA_doze G) _ _ ?_
    simp only [List.forall_mem_cons, List.not_mem_nil, IsEmpty.forall_iff, implies_true, and_true]
    have := @keep_x _ _ (doze G (Conditioned β)) (passesA_doze (β := Conditioned β) G)
    exact ⟨fun rs cr => passes_conditioned_doze (this rs) cr, fun rs cr => passes_conditioned_doze (this rs) cr⟩
  · exact @Passes.throw _ _ (doze G β) _ _ _

variable (G) in
theorem keeping_carry_doze : @Keeping β (doze G β) Arith.carry := by
  intro rs
  unfold Arith.carry
  split
  · refine @passes_lines β _ (doze G β) (passesA_doze G) _ _ ?_
    simp only [List.forall_mem_cons, List.not_mem_nil, IsEmpty.forall_iff, implies_true, and_true]
    have := @keep_x _ _ (doze G (Conditioned β)) (passesA_doze (β := Conditioned β) G)
    exact ⟨fun rs cr => passes_conditioned_doze (this rs) cr, fun rs cr => passes_conditioned_doze (this rs) cr,
      fun rs cr => passes_conditioned_doze (this rs) cr, fun rs cr => passes_conditioned_doze (this rs) cr⟩
  · exact @Passes.throw _ _ (doze G β) _ _ _

theorem calms_plain {c : CObj} (h : Plain c) : Calms G c := calms_of fun ρ hc => by
  unfold Plain at h
  rw [hc] at h
  exact h

theorem keeping_invert_plain {f : List Reg → M LocalBuilder (List Reg)} (hk : Keeping f) (hp : ∀ rs, Adds AllPlain (f rs)) :
    @Keeping β (doze G β) (invertFn f) := by
  refine @keeping_invertFn_of β _ (doze G β) (passesR_doze G) f fun n sc r hb => ?_
  refine @passes_applyInverted_of β _ (doze G β) _ _ fun sc' hi => ?_
  exact passes_applySub_doze sc' r (ok_invertSub hi (ok_buildSub hk hb)) fun e he => calms_plain (inv_plain hp n sc sc' hb hi e he)

theorem keeping_circ (c : Circ) (hc : c ≠ .lshift) (h : @Keeping β (swell β) c.run) : @Keeping β (doze G β) c.run :=
  fun rs => (h rs).sleeps fun s a s' L hl he cs hs => circ_sleeps c hc (fun r hr => Ledger.ne hl r (by simp [hr])) hs (L := L.flatten) (by
    have := SleepyC.own G hl hs
    rwa [List.flatten_append, ← List.append_assoc] at this) he

theorem calms_invertSub (hG : ∀ co cos, invertObject co = .ok cos → Calms G co → ∀ c ∈ cos, Calms G c) {sc sc' : Pipeline}
    (h : invertSub sc = .ok sc') (hsc : ∀ e ∈ sc, Calms G e.2) : ∀ e ∈ sc', Calms G e.2 := by
  unfold invertSub at h
  have key : ∀ (l acc out : Pipeline), (∀ e ∈ l, Calms G e.2) → (∀ e ∈ acc, Calms G e.2) →
      l.foldlM (fun acc e => do
        let cos ← invertObject e.2
        pure (acc ++ cos.map fun co => (e.1, co))) acc = (.ok out : Except Fail Pipeline) → ∀ e ∈ out, Calms G e.2 := by
    intro l
    induction l with
    | nil =>
      intro acc out _ ha ho
      cases ho
      exact ha
    | cons e l ih =>
      intro acc out hl ha ho
      rw [List.foldlM_cons] at ho
      cases hi : invertObject e.2 with
      | error f => rw [hi] at ho; cases ho
      | ok cs =>
        rw [hi] at ho
        refine ih _ out (fun e' he' => hl e' (List.mem_cons_of_mem _ he')) ?_ ho
        intro e' he'
        rcases List.mem_append.mp he' with he' | he'
        · exact ha e' he'
        · obtain ⟨c, hc, rfl⟩ := List.mem_map.mp he'
          exact hG _ _ hi (hl e (by simp)) c hc
  exact key _ [] sc' (fun e he => hsc e (List.mem_reverse.mp he)) (by simp) h

variable [Tracks β (Turns 0) Plain Plain]

theorem keeping_method_doze (hG : ∀ co cos, invertObject co = .ok cos → Calms G co → ∀ c ∈ cos, Calms G c)
    (m : Method) (hd : m.Dozes) (hm : m.NoRepeat) (ho : ∀ c ∈ m.objects, Stock.Given c) (hc : ∀ c ∈ m.objects, Calms G c)
    (ht : ∀ c, m = .tryCond c → Calms G c) : @Keeping β (doze G β) m.run := by
  by_cases hli : m.Light
  · exact @keeping_light β _ (doze G β) (passesA_doze G) m hli hm
  intro rs
  have hsw : @Passes _ _ (swell β) (m.run rs) rs fun rs => rs := @keeping_method β _ _ (swell β) passesS_swell m hm ho rs
  unfold Method.run
  split
  case h_11 => exact @keep1 β (doze G β) _ _ (passes_object_doze _ _ (ho _ (by simp [Method.objects])) (hc _ (by simp [Method.objects])))
  case h_12 =>
    split
    · exact @keep1 β (doze G β) _ _ (passes_matrix_doze _ _ _ (ho _ (List.mem_singleton.mpr rfl)) ‹_›)
    · exact @Passes.throw _ _ (doze G β) _ _ _
  case h_13 =>
    split
    · exact @keep1 β (doze G β) _ _ (passes_matrix_doze _ _ _ (ho _ (List.mem_singleton.mpr rfl)) ‹_›)
    · exact @Passes.throw _ _ (doze G β) _ _ _
  case h_14 =>
    split
    · exact @keep1 β (doze G β) _ _ (@Passes.unwrapM _ _ (doze G β) _ _ _ (passes_matrix_doze _ _ _ (ho _ (List.mem_singleton.mpr rfl)) ‹_›))
    · exact @Passes.throw _ _ (doze G β) _ _ _
  case h_19 => exact @keep2 β (doze G β) _ _ (passes_toffoli_doze _ _)
  case h_29 => exact @keep1 β (doze G β) _ _ (passes_temp_doze G)
  case h_30 => exact @keep1 β (doze G β) _ _ (@passes_temps β _ (doze G β) (passesR_doze G) (passes_temp_doze G) _)
  case h_32 => exact @keep2 β (doze G β) _ _ (passes_tryCond_doze _ _ _ (ht _ rfl))
  case h_33 =>
    have sub := fun e he => ho (Prod.snd e) (List.mem_map_of_mem he)
    have sub' := fun e he => hc (Prod.snd e) (List.mem_map_of_mem he)
    exact @keep1 β (doze G β) _ _ (passes_applySub_doze _ _ sub sub')
  case h_34 =>
    have sub := fun e he => ho (Prod.snd e) (List.mem_map_of_mem he)
    have sub' := fun e he => hc (Prod.snd e) (List.mem_map_of_mem he)
    refine @keep1 β (doze G β) _ _ (@passes_applyInverted_of β _ (doze G β) _ _ fun sc' hi => ?_)
    refine passes_applySub_doze sc' _ (ok_invertSub hi fun e he => Stock.given (sub e he)) (calms_invertSub hG hi sub')
  case h_35 =>
    have sub := fun e he => ho (Prod.snd e) (List.mem_map_of_mem he)
    have sub' := fun e he => hc (Prod.snd e) (List.mem_map_of_mem he)
    exact @keep2 β (doze G β) _ _ (passes_condSub_doze _ _ _ sub sub')
  case h_38 => exact keeping_sum_doze G _
  case h_39 => exact keeping_carry_doze G _
  case h_40 => exact keeping_invert_plain keeping_carry plain_carry _
  case h_41 => exact keeping_circ .add (by simp) (@keeping_add β _ _ (swell β) passesS_swell) _
  case h_42 => exact keeping_circ .addInv (by simp) (@keeping_invertFn β _ _ (swell β) passesS_swell _ keeping_add) _
  case h_43 => exact keeping_circ .addMod (by simp) (@keeping_addMod β _ _ (swell β) passesS_swell) _
  case h_44 => exact keeping_circ .addModInv (by simp) (@keeping_invertFn β _ _ (swell β) passesS_swell _ keeping_addMod) _
  case h_45 => exact keeping_circ .rshift (by simp) (@keeping_rshift β _ _ (swell β) passesS_swell) _
  case h_46 => exact keeping_invert_plain keeping_rshift plain_rshift _
  case h_47 => exact keeping_circ .copy (by simp) (@keeping_copy β _ _ (swell β) passesS_swell) _
  case h_48 => exact keeping_circ .copyInv (by simp) (@keeping_invertFn β _ _ (swell β) passesS_swell _ keeping_copy) _
  case h_49 => exact keeping_circ .timesMod (by simp) (@keeping_timesMod β _ _ (swell β) passesS_swell) _
  case h_50 => exact keeping_circ .timesModInv (by simp) (@keeping_invertFn β _ _ (swell β) passesS_swell _ keeping_timesMod) _
  case h_51 => exact keeping_circ .squareMod (by simp) (@keeping_squareMod β _ _ (swell β) passesS_swell) _
  case h_52 => exact keeping_circ .squareModInv (by simp) (@keeping_invertFn β _ _ (swell β) passesS_swell _ keeping_squareMod) _
  case h_53 => exact keeping_circ .expMod (by simp) (@keeping_expMod β _ _ (swell β) passesS_swell) _
  case h_54 => exact keeping_circ .expModInv (by simp) (@keeping_invertFn β _ _ (swell β) passesS_swell _ keeping_expMod) _
  case h_55 => exact @Passes.throw _ _ (doze G β) _ _ _
  all_goals first | exact hd.elim | exact absurd trivial hli

end

/-- rotations about z without a phase, inverted -/
theorem calms_bot_invert {co : CObj} {cos : List CObj} (h : invertObject co = .ok cos) (hc : Calms ⊥ co) : ∀ c ∈ cos, Calms ⊥ c := by
  obtain ⟨n, o⟩ := co
  rcases o with u | k
  · have key : ∀ (us : List UObj), (∀ u' ∈ us, ∀ ρ', u' = .Rz ρ' → ∃ ρ, u = .Rz ρ ∧ ρ' = ρ.neg) →
        cos = us.map (fun u => (⟨n, .unitary u⟩ : CObj)) → ∀ c ∈ cos, Calms ⊥ c := by
      rintro us hu rfl c hm ρ' hρ
      obtain ⟨u', hu', rfl⟩ := List.mem_map.mp hm
      obtain ⟨ρ, e, rfl⟩ := hu u' hu' ρ' (by simpa using hρ)
      have h1 := Submonoid.mem_bot.mp (hc ρ (by rw [e]))
      rw [Submonoid.mem_bot, rotAngle_neg']
      have e2 : ((-(-rotAngle ρ / 2) : ℝ) : ℂ) * Complex.I = -((-(rotAngle ρ / 2) : ℝ) * Complex.I) := by push_cast; ring
      rw [e2, Complex.exp_neg, h1, inv_one]
    unfold invertObject at h
    cases u <;> simp only at h
    case MAT data =>
      cases hd : daggerData n data with
      | none => rw [hd] at h; cases h
      | some d => rw [hd] at h; exact key [.MAT d] (by simp) (by cases h; rfl)
    all_goals
      refine key _ ?_ (Except.ok.inj h).symm
      simp
  · cases h

theorem objects_given {m : Method} {c : CObj} (h : c ∈ m.objects) : c ∈ m.given := by
  unfold Method.given
  split
  · simp [Method.objects] at h
  · exact h

/-- a function of a program does nothing inside conditions one of which is not met -/
theorem Steady.dozes [Stock] {G : Submonoid ℂ} (hG : ∀ co cos, invertObject co = .ok cos → Calms G co → ∀ c ∈ cos, Calms G c)
    {P : Method → Prop} {I : Prop} {ok : CObj → Prop} (hI : I → ∀ co, Calms G co)
    (hP : ∀ m, P m → m.Dozes ∧ ∀ c ∈ m.given, Calms G c) (hok : ∀ c, ok c → Stock.Given c)
    {k : ℕ} {f : List Reg → M (NB k) (List Reg)} (h : Steady P I ok k f) : @Keeping _ (doze G (NB k)) f := by
  induction h with
  | method m hm h1 ho =>
    exact keeping_method_doze hG m (hP m hm).1 h1 (fun c hc => hok c (ho c hc)) (fun c hc => (hP m hm).2 c (objects_given hc))
      fun c e => (hP m hm).2 c (by rw [e]; simp [Method.given])
  | onLocal m =>
    intro rs
    refine ((keeping_localMethod m rs).swells fun _ _ _ _ _ _ => .of_eq rfl).sleeps fun s a s' L hl he cs hs => ?_
    cases hs
    rw [idle_nil]
    obtain ⟨-, seg, h1, -⟩ := ((keeping_localMethod m rs s L hl).1 _ _ he).2
    exact Longer.rests ⟨seg, h1⟩
  | keep σ h => exact fun rs => @Passes.pure _ _ (doze G _) _ _ _ (h rs)
  | seq _ _ ihf ihg => exact @keeping_seq _ (doze G _) _ _ ihf ihg
  | on σ h _ ih => exact @keeping_on _ (doze G _) _ σ h ih
  | choose c _ ih => exact fun rs s L hs => ih (c s rs) rs s L hs
  | cond _ ih =>
    rename_i k f _
    exact @keeping_cond (NB k) (doze G _) f fun rs cr => passes_conditioned_doze (β := NB k) (ih rs) cr
  | prog lines _ _ ihp ihc =>
    rename_i k _ _
    intro rs
    refine @passes_lines _ _ (doze G _) (passesA_doze G) rs lines ?_
    rintro (⟨f, gs⟩ | ⟨mask, f, gs⟩) hl
    · exact ihp f gs hl
    · exact fun rs cr => passes_conditioned_doze (ihc mask f gs hl rs) cr
  | invert hi h =>
    refine @keeping_invertFn_of _ _ (doze G _) (passesR_doze G) _ fun n sc r hb => ?_
    refine @passes_applyInverted_of _ _ (doze G _) _ _ fun sc' hv => ?_
    exact passes_applySub_doze sc' r (ok_invertSub hv (ok_buildSub (h.keeping hok) hb)) fun e _ => hI hi e.2
  | inverter hi h =>
    intro rs
    refine @passes_inverterArgs_of _ _ (doze G _) (passesR_doze G) _ rs _ () fun n sc r hb => ?_
    refine @passes_applyInverted_of _ _ (doze G _) _ _ fun sc' hv => ?_
    exact passes_applySub_doze sc' r (ok_invertSub hv (ok_buildSub (h.keeping hok) hb)) fun e _ => hI hi e.2

end Verif
