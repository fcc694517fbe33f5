import Verif.Proofs.Sim2
import Verif.Spec.Nest

/-!
# Nested conditioned builders
-/

namespace Verif
open Complex Classical Rooted

variable {ang : Rot → ℝ}

instance NB.sim : (k : ℕ) → Sim (NB k)
  | 0 => inferInstanceAs (Sim LocalBuilder)
  | k + 1 => letI := NB.sim k; inferInstanceAs (Sim (Conditioned (NB k)))

/-- the builder inside the conditions `crs` -/
def stack : (crs : List Reg) → LocalBuilder → NB crs.length
  | [], b => b
  | c :: cs, b => (⟨stack cs b, some c⟩ : Conditioned (NB cs.length))

theorem ctl_stack : (crs : List Reg) → (b : LocalBuilder) → (∀ c ∈ crs, c ≠ []) → ctl (stack crs b) = some crs
  | [], _, _ => rfl
  | c :: cs, b, h => conditioned_ctl (p := stack cs b) (ctl_stack cs b fun d hd => h d (by simp [hd])) (h c (by simp))

theorem root_stack : (crs : List Reg) → (b : LocalBuilder) → root (stack crs b) = b
  | [], _ => rfl
  | _ :: cs, b => root_stack cs b

/-- a method inside the conditions, seen from outside -/
theorem under_does {α : Type} : (crs : List Reg) → (m : M (NB crs.length) α) → {b : LocalBuilder} → {a : α} → {L : List ℕ} →
    {U : Asg → Wave} → (∀ c ∈ crs, c ≠ []) → Does ang m (stack crs b) a L U → Does ang (under crs m) b (a, crs) L U
  | [], m, b, a, L, U, _, h => by
    obtain ⟨s', h1, h2⟩ := h
    refine ⟨s', ?_, h2⟩
    exact bind_ok (β := LocalBuilder) (x := m) (f := fun a => pure (a, [])) h1
  | c :: cs, m, b, a, L, U, hc, h => by
    have h1 := Does.conditioned (β := NB cs.length) (cs := cs) (cr := c) (m := m) (s := stack cs b)
      (ctl_stack cs b fun d hd => hc d (by simp [hd])) (hc c (by simp)) h
    obtain ⟨s', h2, h3⟩ := under_does cs _ (fun d hd => hc d (by simp [hd])) h1
    refine ⟨s', ?_, h3⟩
    show (under cs _ >>= _) b = _
    rw [bind_ok h2]
    rfl

theorem under_acts {α : Type} : (crs : List Reg) → (m : M (NB crs.length) α) → {b b' : LocalBuilder} → {a : α} →
    (∀ c ∈ crs, c ≠ []) → Acts m (stack crs b) a b' → under crs m b = .ok (a, crs) b'
  | [], m, b, b', a, _, h => by
    obtain ⟨s', h1, h2, -⟩ := h
    cases h2
    exact bind_ok (β := LocalBuilder) (x := m) (f := fun a => pure (a, [])) h1
  | c :: cs, m, b, b', a, hc, h => by
    obtain ⟨s', h1, h2, h3⟩ := h
    have hct := ctl_stack cs b fun d hd => hc d (by simp [hd])
    rw [ctl_stack (c :: cs) b hc] at h3
    obtain ⟨cr', ps, e1, e2, e3, e4⟩ := ctl_conditioned (β := NB cs.length) h3
    injection e4 with e4 e5
    subst e4 e5
    have h4 : Acts (Conditioned.conditioned (β := NB cs.length) c m) (stack cs b) (a, c) b' := by
      refine ⟨Conditioned.parent (β := NB cs.length) s', ?_, h2, ?_⟩
      · unfold Conditioned.conditioned
        have h1' : m (⟨stack cs b, some c⟩ : Conditioned (NB cs.length)) = .ok a s' := h1
        rw [h1']
        simp only [e1]
      · rw [e3, hct]
    have h5 := under_acts cs _ (fun d hd => hc d (by simp [hd])) h4
    show (under cs _ >>= _) b = _
    rw [bind_ok h5]
    rfl

section
variable {β : Type} [Conditionable β] [Rooted β] [Sim β]

theorem u1_comp (q : ℕ) (a b : ℂ) : gateW [q] (mat2 1 0 0 a) ∘ₗ gateW [q] (mat2 1 0 0 b) = gateW [q] (mat2 1 0 0 (a * b)) := by
  refine LinearMap.ext fun ψ => ?_
  rw [LinearMap.comp_apply, gate1_comp]
  congr 3 <;> ring

theorem exp_sd : exp (Real.pi / 4 * I) * -I = exp (-(Real.pi / 4) * I) := by
  have h : (-I : ℂ) = exp (-(Real.pi / 2) * I) := by
    rw [neg_mul, Complex.exp_neg, exp_pi_div_two_mul_I]; simp
  rw [h, ← Complex.exp_add]; congr 1; ring

/-- the one-qubit gates other than Y and H -/
theorem sim_named {s : β} {cs : List Reg} {L : List ℕ} (hs : ctl s = some cs) (g : Named) (hy : g ≠ .y) (hh : g ≠ .h) {q : ℕ}
    (ho : Own (root s) (cs.flatten ++ [q] ++ L)) :
    Does ang (g.runOn [q]) s [q] (cs.flatten ++ [q] ++ L) (ctlW cs.flatten (gateW [q] g.mat)) := by
  cases g
  · exact sim_x hs ho
  · exact absurd rfl hy
  · exact sim_z hs ho
  · exact absurd rfl hh
  · exact sim_s hs ho
  · exact sim_t hs ho
  · refine (sim_sDagger hs ho).congrU fun x _ => ?_
    have : u1 ang q .S ∘ₗ u1 ang q .Z = gateW [q] (Named.mat .sDagger) := by
      refine (u1_comp q I (-1)).trans ?_
      unfold Named.mat; simp
    rw [this]
  · refine (sim_tDagger hs ho).congrU fun x _ => ?_
    have : u1 ang q .T ∘ₗ u1 ang q .S ∘ₗ u1 ang q .Z = gateW [q] (Named.mat .tDagger) := by
      have h1 : u1 ang q .S ∘ₗ u1 ang q .Z = gateW [q] (mat2 1 0 0 (-I)) := by
        refine (u1_comp q I (-1)).trans ?_
        simp
      rw [h1]
      refine (u1_comp q _ (-I)).trans ?_
      unfold Named.mat
      rw [exp_sd]
    rw [this]

/-- bring some of the qubits to the front -/
theorem own_front {b : LocalBuilder} {A Q L : List ℕ} (sub : List ℕ) (hs : sub.Nodup) (hin : ∀ q ∈ sub, q ∈ Q)
    (ho : Own b (A ++ Q ++ L)) : ∃ R, (A ++ Q ++ L).Perm (A ++ sub ++ R) := by
  have hnd : Q.Nodup := (List.nodup_append.mp (List.nodup_append.mp ho.left).1).2.1
  obtain ⟨l, hl, hl2⟩ := List.subperm_of_subset hs hin
  obtain ⟨R, hR'⟩ := hl2.exists_perm_append
  have hR := hR'.trans (List.Perm.append_right R hl)
  refine ⟨R ++ L, ?_⟩
  rw [List.append_assoc, List.append_assoc]
  refine List.Perm.append_left _ ?_
  rw [← List.append_assoc]
  exact List.Perm.append_right _ hR

theorem Step.keeps {cs Q : List ℕ} (hd : ∀ c ∈ cs, c ∉ Q) (st : Step) (hi : st.In Q) (x : Asg) {ψ : Wave}
    (h : On {y | ∀ c ∈ cs, y c = x c} ψ) : On {y | ∀ c ∈ cs, y c = x c} (st.wave ψ) := by
  cases st with
  | one g q =>
    refine On.gate h [q] _ fun y hy v d hd' => ?_
    have hne : d ∉ [q] := by
      intro hm
      rw [List.mem_singleton] at hm
      subst hm
      exact hd d hd' hi
    rw [writeQ_not_mem _ _ _ _ hne]; exact hy d hd'
  | cnot c t =>
    refine On.map h _ fun y hy => ?_
    have : Step.wave (.cnot c t) (ket y) = ket (if y c = true then flipQ t y else y) := lift_ket _ y
    rw [this]
    refine On.ket ?_
    intro d hd'
    split
    · rw [flipQ_of_ne]
      · exact hy d hd'
      · rintro rfl; exact hd d hd' hi.2.1
    · exact hy d hd'

theorem sim_step {s : β} {cs : List Reg} {Q L : List ℕ} (hs : ctl s = some cs) (st : Step) (hi : st.In Q) (hp : st.Plain)
    (ho : Own (root s) (cs.flatten ++ Q ++ L)) :
    Does ang st.run s () (cs.flatten ++ Q ++ L) (ctlW cs.flatten st.wave) := by
  cases st with
  | one g q =>
    obtain ⟨R, hR⟩ := own_front [q] (by simp) (fun p hp => by rw [List.mem_singleton] at hp; subst hp; exact hi) ho
    refine Does.congr (a := ()) (U := ctlW cs.flatten (gateW [q] g.mat)) (L := cs.flatten ++ [q] ++ R) ?_ rfl hR.symm fun x _ => rfl
    refine (Does.bind (f := fun _ => pure ()) (sim_named hs g hp.1 hp.2 (ho.perm hR)) fun s' _ o' => Does.pure o' ()).congrU fun x _ => ?_
    rw [lift_ket_id]; rfl
  | cnot c t =>
    obtain ⟨R, hR⟩ := own_front [c, t] (by simpa using hi.2.2) (fun p hp => by
      rcases List.mem_pair.mp hp with rfl | rfl
      · exact hi.1
      · exact hi.2.1) ho
    refine Does.congr (a := ()) (U := ctlW cs.flatten (Step.wave (.cnot c t))) (L := cs.flatten ++ [c, t] ++ R) ?_ rfl hR.symm fun x _ => rfl
    refine (Does.bind (f := fun _ => pure ()) (sim_cnot hs (by simp) (ho.perm hR)) fun s' _ o' => Does.pure o' ()).congrU fun x _ => ?_
    rw [lift_ket_id, LinearMap.id_apply]
    unfold ctlW Step.wave
    have : (Finsupp.linearCombination ℂ fun x : Asg => ket (if x c = true then flipQ t x else x)) (ket x) =
        ket (if x c = true then flipQ t x else x) := lift_ket _ x
    rw [this, flipAll_single]
    by_cases h : ∀ d ∈ cs.flatten, x d = true
    · rw [if_pos h]
      by_cases h2 : x c = true
      · rw [if_pos h2, if_pos ⟨h, h2⟩]
      · rw [if_neg h2, if_neg fun h3 => h2 h3.2]
    · rw [if_neg h, if_neg fun h3 => h h3.1]

theorem stepsW_nil : stepsW [] = LinearMap.id := rfl

theorem stepsW_append (l : List Step) (st : Step) : stepsW (l ++ [st]) = st.wave ∘ₗ stepsW l := by
  unfold stepsW; rw [List.foldl_append]; rfl

theorem stepsW_cons (st : Step) (l : List Step) : stepsW (st :: l) = stepsW l ∘ₗ st.wave := by
  induction l using List.reverseRecOn with
  | nil => rfl
  | append_singleton l u ih =>
    rw [← List.cons_append, stepsW_append, ih, stepsW_append]; rfl

theorem sim_steps {cs : List Reg} {Q L : List ℕ} (l : List Step) (hi : ∀ st ∈ l, st.In Q) (hp : ∀ st ∈ l, st.Plain) {s : β}
    (hs : ctl s = some cs) (ho : Own (root s) (cs.flatten ++ Q ++ L)) :
    Does ang (l.forM Step.run) s () (cs.flatten ++ Q ++ L) (ctlW cs.flatten (stepsW l)) := by
  induction l generalizing s with
  | nil =>
    refine (Does.pure ho ()).congrU fun x _ => ?_
    unfold ctlW
    rw [stepsW_nil]
    simp
  | cons st l ih =>
    show Does ang (st.run >>= fun _ => l.forM Step.run) s () _ _
    refine (Does.bind (sim_step hs st (hi st (by simp)) (hp st (by simp)) ho) fun s' h1 o1 =>
      ih (fun t ht => hi t (by simp [ht])) (fun t ht => hp t (by simp [ht])) (h1.trans hs) o1).congrU fun x _ => ?_
    rw [stepsW_cons]
    exact ctlW_comp x (Step.keeps (disj cs.flatten Q L (root s) ho) st (hi st (by simp)) x (On.ket fun _ _ => rfl))

end

end Verif
