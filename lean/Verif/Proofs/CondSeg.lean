import Verif.Proofs.CondCarry
import Verif.Proofs.Moves
import Verif.Proofs.AddMod

/-! # What gates become under conditions -/

namespace Verif
open Classical Complex RegOps CircuitBuilder Rooted TempBuilder

section
variable {β α γ : Type} [Conditionable β] [Rooted β] [Sim β]

theorem sim_h {s : β} {cs : List Reg} {L : List ℕ} (hs : ctl s = some cs) (hc : cs ≠ []) {q : ℕ} (ho : Own (root s) (cs.flatten ++ [q] ++ L)) :
    Does rotAngle (Gate.h [q]) s [q] (cs.flatten ++ [q] ++ L) (ctlW cs.flatten (gateW [q] (Named.condMat .h))) := by
  obtain ⟨s', h1, h2⟩ := (Does.of_root' (m := CircuitBuilder.applyCO [q] ⟨1, .unitary .H⟩) (a := [q])
    (condH_does cs.flatten L q (root s) (flatten_ne hs hc) ho 1) fun b hb =>
      Sim.applyCO hs hc (List.nodup_append.mp (List.nodup_append.mp ho.left).1).1 hb).unwrap
  refine ⟨s', ?_, h2⟩
  unfold Gate.h Verif.gate
  rw [bind_ok (get_run s), Sim.makeH]
  exact h1

theorem sim_y {s : β} {cs : List Reg} {L : List ℕ} (hs : ctl s = some cs) (hc : cs ≠ []) {q : ℕ} (ho : Own (root s) (cs.flatten ++ [q] ++ L)) :
    Does rotAngle (Gate.y [q]) s [q] (cs.flatten ++ [q] ++ L) (ctlW cs.flatten (gateW [q] (Named.condMat .y))) := by
  obtain ⟨s', h1, h2⟩ := (Does.of_root' (m := CircuitBuilder.applyCO [q] ⟨1, .unitary .Y⟩) (a := [q])
    (condY_does rotAngle cs.flatten L q (root s) (flatten_ne hs hc) ho 1) fun b hb =>
      Sim.applyCO hs hc (List.nodup_append.mp (List.nodup_append.mp ho.left).1).1 hb).unwrap
  have : Does rotAngle (Gate.y [q]) s [q] (cs.flatten ++ [q] ++ L) (ctlW cs.flatten (-gateW [q] (Named.mat .y))) := by
    refine ⟨s', ?_, h2⟩
    unfold Gate.y Verif.gate
    rw [bind_ok (get_run s), Sim.makeY]
    exact h1
  refine this.congrU fun x _ => ?_
  have e : -gateW [q] (Named.mat .y) = gateW [q] (Named.condMat .y) := by
    refine wave_ext fun y => ?_
    rw [LinearMap.neg_apply]
    show -gateW [q] (mat2 0 (-I) I 0) (ket y) = gateW [q] (mat2 0 I (-I) 0) (ket y)
    rw [gate1_ket, gate1_ket]
    cases y q <;> simp [mat2]
  rw [e]

theorem Moves.named {cs : List Reg} (hc : cs ≠ []) (g : Named) (q : ℕ) :
    Moves rotAngle cs (g.runOn [q] : M β _) [q] [q] (fun x => gateW [q] g.condMat (ket x)) where
  keeps x := by
    refine (On.ket (show x ∈ {y | ∀ p, p ∉ [q] → y p = x p} from fun _ _ => rfl)).gate [q] _ fun y hy c p hp => ?_
    rw [writeQ_not_mem _ _ _ _ hp]
    exact hy p hp
  does s L hs ho := by
    show Does rotAngle (g.runOn [q]) s [q] _ (ctlW cs.flatten (gateW [q] g.condMat))
    cases g
    case y => exact sim_y hs hc ho
    case h => exact sim_h hs hc ho
    all_goals exact sim_named hs _ (by simp) (by simp) ho

/-- one linear map after the other -/
theorem Moves.bindL {cs : List Reg} {m : M β α} {a : α} {Q : List ℕ} {W V : Wave →ₗ[ℂ] Wave} (h : Moves rotAngle cs m a Q fun x => W (ket x))
    {f : α → M β γ} {c : γ} (h' : Moves rotAngle cs (f a) c Q fun x => V (ket x)) :
    Moves rotAngle cs (m >>= f) c Q fun x => (V ∘ₗ W) (ket x) :=
  (h.bind h').congr fun x => by
    have : lift (fun x => V (ket x)) = V := wave_ext fun y => by rw [lift_ket]
    rw [this]; rfl

theorem Moves.step {cs : List Reg} (hc : cs ≠ []) {Q : List ℕ} (st : Step) (hi : st.In Q) :
    Moves rotAngle cs (st.run : M β _) () Q (fun x => st.condWave (ket x)) := by
  cases st with
  | one g q =>
    exact ((Moves.named hc g q).map (f := fun _ => ()) rfl).mono (by simp) (by simpa [Step.In] using hi)
  | cnot c t =>
    refine (((Maps.cnot (ang := rotAngle) cs c [t] (by simp)).moves.map (f := fun _ => ()) rfl).mono (by simpa using hi.2.2) ?_).congr fun x => ?_
    · intro q hq
      rcases List.mem_pair.mp hq with rfl | rfl
      · exact hi.1
      · exact hi.2.1
    · rw [flipAll_single]
      exact (lift_ket (fun x => ket (if x c = true then flipQ t x else x)) x).symm

theorem condStepsW_cons (st : Step) (l : List Step) : condStepsW (st :: l) = condStepsW l ∘ₗ st.condWave := by
  induction l using List.reverseRecOn with
  | nil => rfl
  | append_singleton l u ih =>
    have e : ∀ l : List Step, condStepsW (l ++ [u]) = u.condWave ∘ₗ condStepsW l := fun l => by
      unfold condStepsW; rw [List.foldl_append]; rfl
    rw [← List.cons_append, e, ih, e]; rfl

theorem Moves.steps {cs : List Reg} (hc : cs ≠ []) {Q : List ℕ} (l : List Step) (hi : ∀ st ∈ l, st.In Q) :
    Moves rotAngle cs (l.forM Step.run : M β _) () Q (fun x => condStepsW l (ket x)) := by
  induction l with
  | nil => exact (Maps.pure ()).moves
  | cons st l ih =>
    rw [condStepsW_cons]
    exact (Moves.step hc st (hi st (by simp))).bindL (f := fun _ => l.forM Step.run) (ih fun t ht => hi t (by simp [ht]))

theorem Moves.unwrap {cs : List Reg} {m : M β α} {a : α} {Q : List ℕ} {U : Asg → Wave} (h : Moves rotAngle cs m a Q U) :
    Moves rotAngle cs (unwrapM m) a Q U := ⟨h.keeps, fun s L hs ho => (h.does s L hs ho).unwrap⟩

/-- `toffoli` with two control qubits and one target on a builder with conditions -/
theorem Moves.toffoli_two {cs : List Reg} (hc : cs ≠ []) (a b q : ℕ) :
    Moves rotAngle cs (toffoli [a, b] [q] : M β _) ([a, b], [q]) [a, b, q]
      (fun x => if x a && x b then gateW [q] wMat (ket x) else ket x) := by
  refine Moves.of_nodup (fun x => ?_) fun hn => ?_
  · split
    · refine (On.ket (show x ∈ {y | ∀ p, p ∉ [a, b, q] → y p = x p} from fun _ _ => rfl)).gate [q] _ fun y hy c p hp => ?_
      rw [writeQ_not_mem _ _ _ _ (by simp only [List.mem_cons, not_or] at hp ⊢; exact ⟨hp.2.2.1, List.not_mem_nil⟩)]
      exact hy p hp
    · exact On.ket fun _ _ => rfl
  have hn' := hn
  simp only [List.nodup_cons, List.mem_cons, List.not_mem_nil, or_false, not_or] at hn'
  obtain ⟨⟨hab, haq⟩, hbq, -⟩ := hn'
  have one : ∀ (g : Named) (p : ℕ), p ∈ [a, b, q] → Moves rotAngle cs (g.runOn [p] : M β _) [p] [a, b, q] (fun x => gateW [p] g.condMat (ket x)) :=
    fun g p hp => (Moves.named hc g p).mono (by simp) (by simpa using hp)
  have two : ∀ c t : ℕ, c ∈ [a, b, q] → t ∈ [a, b, q] → c ≠ t →
      Moves rotAngle cs (unwrapM (cnot [c] [t]) : M β _) ([c], [t]) [a, b, q] (fun x => runW rotAngle (cnots c [t]) (ket x)) := fun c t hc ht hne =>
    ((Maps.cnot (ang := rotAngle) cs c [t] (by simp)).moves.mono (by simpa using hne) (by
      intro p hp
      rcases List.mem_pair.mp hp with rfl | rfl
      · exact hc
      · exact ht)).unwrap.congr fun x => by rw [cnots_ket rotAngle c [t] (by simpa using hne)]
  have key : Moves rotAngle cs (basicToffoli [a, b] [q] : M β _) ([a, b], [q]) [a, b, q]
      (fun x => runW rotAngle (objects condObj (basicToffoliSeg a b [q])) (ket x)) := by
    have hH : ∀ p ∈ [a, b, q], Moves rotAngle cs (Gate.h [p] : M β _) [p] [a, b, q] (fun x => runW rotAngle (objects condObj (each [p] .H)) (ket x)) :=
      fun p hp => (one .h p hp).congr fun x => by
        show _ = entryW rotAngle ([p], condObj ⟨1, .unitary .H⟩) (ket x)
        rw [entry_condH]; rfl
    have hT : ∀ p ∈ [a, b, q], Moves rotAngle cs (Gate.t [p] : M β _) [p] [a, b, q] (fun x => runW rotAngle (objects condObj (each [p] .T)) (ket x)) :=
      fun p hp => (one .t p hp).congr fun x => rfl
    have hD : ∀ p ∈ [a, b, q], Moves rotAngle cs (tDagger [p] : M β _) [p] [a, b, q]
        (fun x => runW rotAngle (objects condObj (each [p] .Z ++ each [p] .S ++ each [p] .T)) (ket x)) :=
      fun p hp => (one .tDagger p hp).congr fun x => by
        show _ = u1 rotAngle p .T (u1 rotAngle p .S (u1 rotAngle p .Z (ket x)))
        have h1 : u1 rotAngle p .S ∘ₗ u1 rotAngle p .Z = gateW [p] (mat2 1 0 0 (-I)) := by
          refine (u1_comp p I (-1)).trans ?_
          simp
        have h2 : u1 rotAngle p .T ∘ₗ u1 rotAngle p .S ∘ₗ u1 rotAngle p .Z = gateW [p] (Named.mat .tDagger) := by
          rw [h1]
          refine (u1_comp p _ (-I)).trans ?_
          unfold Named.mat
          rw [exp_sd]
        exact (LinearMap.congr_fun h2 (ket x)).symm
    have ma : a ∈ [a, b, q] := by simp
    have mb : b ∈ [a, b, q] := by simp
    have mq : q ∈ [a, b, q] := by simp
    unfold basicToffoli
    rw [if_pos (by rfl), LawfulReg.splitRel_eq, splitE_head a [b] (by simpa using hab) (by simp)]
    simp only [liftE_ok, pure_bind]
    refine Moves.congr (Moves.bindL (hH q mq) (Moves.bindL (two b q mb mq hbq) (Moves.bindL (hD q mq) (Moves.bindL (two a q ma mq haq)
      (Moves.bindL (hT q mq) (Moves.bindL (two b q mb mq hbq) (Moves.bindL (hD q mq) (Moves.bindL (two a q ma mq haq) (Moves.bindL (hT b mb)
      (Moves.bindL (hT q mq) (Moves.bindL (two a b ma mb hab) (Moves.bindL (hH q mq) (Moves.bindL (hT a ma) (Moves.bindL (hD b mb)
      (Moves.bindL (two a b ma mb hab) (V := LinearMap.id) (c := ([a, b], [q])) ?_))))))))))))))) fun x => ?_
    · rw [LawfulReg.mergeTwo_eq _ _ (by simp), pure_bind]
      exact (Maps.pure _).moves
    · have hc : ∀ c t : ℕ, objects condObj (cnots c [t]) = cnots c [t] := fun _ _ => rfl
      unfold basicToffoliSeg
      simp only [objects_append, runW_append, hc, LinearMap.comp_apply, LinearMap.id_apply]
  refine (key.cast ?_ rfl).congr fun x => condToffoli_ket rotAngle a b q hn x
  rfl

end

end Verif
