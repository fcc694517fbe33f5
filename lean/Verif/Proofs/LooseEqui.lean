import Verif.Spec.Loose
import Verif.Proofs.StructEqui

/-! # Structured programs with rotations inside conditions: renaming qubits -/

namespace Verif
open Classical

def Mode.inside : Mode → Bool
  | .outside => false
  | _ => true

theorem Method.looseWave_held {m : Method} (hm : m ≠ .qfft) (rs : List Reg) (x : Asg) :
    m.looseWave .held rs x = if m.Turns then m.wave false rs x else m.wave true rs x := by
  cases m <;> first | rfl | exact absurd rfl hm

theorem Method.looseWave_idle {m : Method} (hm : m ≠ .qfft) (rs : List Reg) (x : Asg) :
    m.looseWave .idle rs x = if m.Turns then m.wave false rs x else ket x := by
  cases m <;> first | rfl | exact absurd rfl hm

theorem Method.qfft_takes {inside : Bool} {rs : List Reg} (h : Method.qfft.TakesLoose inside rs) : ∃ r, rs = [r] ∧ r ≠ [] := by
  rcases h with h | h
  · match rs, h with
    | [r], h => exact ⟨r, rfl, h.2⟩
  · match rs, h with
    | [r], h => exact ⟨r, rfl, h.2.2⟩

theorem Method.takes_false {m : Method} (hm : m.Turns = true) {inside : Bool} {rs : List Reg} (h : m.TakesLoose inside rs) : m.Takes false rs := by
  rcases h with h | h
  · cases inside with
    | false => exact h
    | true =>
      cases m
      all_goals first | (exfalso; exact Bool.false_ne_true hm) | (rcases rs with _ | ⟨r, _ | ⟨r', rs⟩⟩ <;> simp [Method.Takes] at h)
  · exact h.2

theorem Method.takes_held {m : Method} (hm : ¬ m.Turns = true) {inside : Bool} {rs : List Reg} (h : m.TakesLoose inside rs) : m.Takes inside rs :=
  h.resolve_right fun h => hm h.1

section
variable {σ : Equiv.Perm ℕ} {f : Asg}

theorem Same.turnsBy (d : ℕ → ℕ → ℂ) {r : Reg} (hf : ∀ q ∈ r, f (σ q) = false) :
    Same σ f (fun x => turnsBy d r (Verif.ket x)) fun x => Verif.turnsBy d (r.map σ) (Verif.ket x) := by
  induction r with
  | nil => exact Same.ket
  | cons q r ih =>
    have hq : ∀ p ∈ [q], f (σ p) = false := fun p hp => hf p (by simp at hp; simp [hp])
    refine (((Same.gate (r := [q]) hq (rzMat (1 - 1 / 2 ^ r.length))).compL (A := gateW [q] d) (A' := gateW ([q].map σ) d)
      (Same.gate (r := [q]) hq _)).compL (A := Verif.turnsBy d r) (A' := Verif.turnsBy d (r.map σ)) (ih fun p hp => hf p (by simp [hp]))).congr (fun x => rfl) fun x => ?_
    show _ = Verif.turnsBy d (σ q :: r.map σ) _
    simp only [Verif.turnsBy, List.length_map]
    rfl

theorem Same.rots {r : Reg} (hf : ∀ q ∈ r, f (σ q) = false) :
    Same σ f (fun x => rotsW r (Verif.ket x)) fun x => rotsW (r.map σ) (Verif.ket x) := by
  induction r with
  | nil => exact Same.ket
  | cons q r ih =>
    have hq : ∀ p ∈ [q], f (σ p) = false := fun p hp => hf p (by simp at hp; simp [hp])
    refine ((Same.gate (r := [q]) hq (rzMat (1 - 1 / 2 ^ r.length))).compL (A := rotsW r) (A' := rotsW (r.map σ)) (ih fun p hp => hf p (by simp [hp]))).congr
      (fun x => rfl) fun x => ?_
    show _ = rotsW (σ q :: r.map σ) _
    simp only [rotsW, List.length_map]
    rfl

theorem Same.ite2 {U U' V V' : Asg → Wave} (h : Same σ f U U') (h' : Same σ f V V') {P P' : Asg → Prop} (hP : ∀ x, P' (mv σ f x) ↔ P x) :
    Same σ f (fun x => if P x then U x else V x) fun x => if P' x then U' x else V' x := fun x => by
  by_cases hp : P x
  · simp only [if_pos hp, if_pos ((hP x).mpr hp), h x]
  · simp only [if_neg hp, if_neg fun h => hp ((hP x).mp h), h' x]

theorem Method.looseWave_same (m : Method) (mode : Mode) (rs : List Reg) (h : m.TakesLoose mode.inside rs) (hf : ∀ q ∈ rs.flatten, f (σ q) = false) :
    Same σ f (m.looseWave mode rs) (m.looseWave mode (rs.map (List.map σ))) := by
  cases mode with
  | outside => exact m.wave_same false rs (by rcases h with h | h; exacts [h, h.2]) hf
  | held =>
    by_cases hm : m = .qfft
    · subst hm
      obtain ⟨r, rfl, -⟩ := Method.qfft_takes h
      have hf' : ∀ q ∈ r, f (σ q) = false := fun q hq => hf q (by simpa using hq)
      exact (Same.turnsBy _ hf').comp (Same.map (reverseMap_rename hf'))
    · by_cases ht : m.Turns = true
      · exact (m.wave_same false rs (Method.takes_false ht h) hf).congr (fun x => by rw [Method.looseWave_held hm, if_pos ht])
          fun x => by rw [Method.looseWave_held hm, if_pos ht]
      · exact (m.wave_same true rs (Method.takes_held ht h) hf).congr (fun x => by rw [Method.looseWave_held hm, if_neg ht])
          fun x => by rw [Method.looseWave_held hm, if_neg ht]
  | idle =>
    by_cases hm : m = .qfft
    · subst hm
      obtain ⟨r, rfl, -⟩ := Method.qfft_takes h
      exact Same.rots fun q hq => hf q (by simpa using hq)
    · by_cases ht : m.Turns = true
      · exact (m.wave_same false rs (Method.takes_false ht h) hf).congr (fun x => by rw [Method.looseWave_idle hm, if_pos ht])
          fun x => by rw [Method.looseWave_idle hm, if_pos ht]
      · exact Same.ket.congr (fun x => by rw [Method.looseWave_idle hm, if_neg ht]) fun x => by rw [Method.looseWave_idle hm, if_neg ht]

theorem Mode.inner_inside (mode : Mode) (P : Prop) : (mode.inner P).inside = true := by
  cases mode <;> simp only [Mode.inner] <;> (try split_ifs) <;> rfl

theorem Same.inner {mode : Mode} {W W' : Mode → Asg → Wave} (h : Same σ f (W .held) (W' .held)) (h' : Same σ f (W .idle) (W' .idle)) {P P' : Asg → Prop}
    (hP : ∀ x, P' (mv σ f x) ↔ P x) : Same σ f (fun x => W (mode.inner (P x)) x) fun x => W' (mode.inner (P' x)) x := by
  cases mode with
  | idle => exact h'
  | _ => exact (h.ite2 h' hP).congr (fun x => by simp only [Mode.inner]; split_ifs <;> rfl) fun x => by simp only [Mode.inner]; split_ifs <;> rfl

theorem Method.takesLoose_congr {m : Method} {inside : Bool} {rs rs' : List Reg} (hl : rs'.map List.length = rs.map List.length) (h : m.TakesLoose inside rs) :
    m.TakesLoose inside rs' := h.imp (Method.takes_congr hl) (And.imp_right (Method.takes_congr hl))

mutual
theorem Prog.takesLoose_congr : (p : Prog) → (inside : Bool) → (rs rs' : List Reg) → rs'.map List.length = rs.map List.length → p.TakesLoose inside rs →
    p.TakesLoose inside rs'
  | .call m, inside, rs, rs', hl, h => by
    simp only [Prog.TakesLoose] at h ⊢
    exact Method.takesLoose_congr hl h
  | .seq p q, inside, rs, rs', hl, h => by
    simp only [Prog.TakesLoose] at h ⊢
    exact ⟨p.takesLoose_congr _ _ _ hl h.1, q.takesLoose_congr _ _ _ hl h.2⟩
  | .cond p, inside, [], rs', hl, h => by simp [Prog.TakesLoose] at h
  | .cond p, inside, cr :: rs, rs', hl, h => by
    obtain ⟨cr', t, rfl, hr, hl⟩ := List.map_eq_cons_iff.mp hl
    simp only [Prog.TakesLoose] at h ⊢
    refine ⟨fun e => h.1 ?_, p.takesLoose_congr _ _ _ hl h.2⟩
    subst e
    exact List.length_eq_zero_iff.mp hr.symm
  | .prog ls, inside, rs, rs', hl, h => by
    simp only [Prog.TakesLoose] at h ⊢
    refine ⟨fun r hr e => ?_, ls.takesLoose_congr _ _ _ hl h.2⟩
    subst e
    have : 0 ∈ rs.map List.length := by rw [← hl]; exact List.mem_map.mpr ⟨[], hr, rfl⟩
    obtain ⟨r, hr, e⟩ := List.mem_map.mp this
    exact h.1 r hr (List.length_eq_zero_iff.mp e)
  | .sized F, inside, rs, rs', hl, h => by
    simp only [Prog.TakesLoose] at h ⊢
    rw [hl]
    exact (F _).takesLoose_congr _ _ _ hl h
  | .inv attr p, inside, rs, rs', hl, h => by
    simp only [Prog.TakesLoose] at h ⊢
    have h1 : rs'.length = rs.length := by simpa using congrArg List.length hl
    rw [hl, List.length_flatten, hl, ← List.length_flatten]
    refine ⟨h.1, fun e => h.2.1 ?_, fun r hr e => ?_, h.2.2.2⟩
    · subst e
      exact List.length_eq_zero_iff.mp h1.symm
    · subst e
      have : 0 ∈ rs.map List.length := by rw [← hl]; exact List.mem_map.mpr ⟨[], hr, rfl⟩
      obtain ⟨r, hr, e⟩ := List.mem_map.mp this
      exact h.2.2.1 r hr (List.length_eq_zero_iff.mp e)

theorem Lines.takesLoose_congr : (ls : Lines) → (inside : Bool) → (rs rs' : List Reg) → rs'.map List.length = rs.map List.length → ls.TakesLoose inside rs →
    ls.TakesLoose inside rs'
  | .nil, _, _, _, _, _ => by simp [Lines.TakesLoose]
  | .plain p gs ls, inside, rs, rs', hl, h => by
    simp only [Lines.TakesLoose] at h ⊢
    exact ⟨h.1.congr hl, p.takesLoose_congr _ _ _ (groups_lengths hl gs) h.2.1, ls.takesLoose_congr _ _ _ hl h.2.2⟩
  | .control m p g gs ls, inside, rs, rs', hl, h => by
    simp only [Lines.TakesLoose] at h ⊢
    exact ⟨h.1.congr hl, p.takesLoose_congr _ _ _ (groups_lengths hl gs) h.2.1, ls.takesLoose_congr _ _ _ hl h.2.2⟩
end

theorem takesLoose_ranges {p : Prog} {inside : Bool} {rs : List Reg} (h : p.TakesLoose inside (ranges 0 (rs.map List.length))) : p.TakesLoose inside rs :=
  p.takesLoose_congr _ _ _ (ranges_map_length _ _).symm h

mutual
theorem Prog.looseWave_same : (p : Prog) → (mode : Mode) → (rs : List Reg) → p.TakesLoose mode.inside rs → (∀ q ∈ rs.flatten, f (σ q) = false) →
    Same σ f (p.looseWave mode rs) (p.looseWave mode (rs.map (List.map σ)))
  | .call m, mode, rs, h, hf => (m.looseWave_same mode rs (by simpa [Prog.TakesLoose] using h) hf).congr (fun x => by simp [Prog.looseWave])
      fun x => by simp [Prog.looseWave]
  | .seq p q, mode, rs, h, hf => by
    simp only [Prog.TakesLoose] at h
    exact ((p.looseWave_same mode rs h.1 hf).comp (q.looseWave_same mode rs h.2 hf)).congr (fun x => by simp only [Prog.looseWave]; rfl)
      fun x => by simp only [Prog.looseWave]; rfl
  | .cond p, mode, [], h, _ => by simp [Prog.TakesLoose] at h
  | .cond p, mode, cr :: rs, h, hf => by
    simp only [Prog.TakesLoose] at h
    have hc : ∀ q ∈ cr, f (σ q) = false := fun q hq => hf q (by simp [hq])
    have hr : ∀ q ∈ rs.flatten, f (σ q) = false := fun q hq => hf q (by rw [List.flatten_cons]; exact List.mem_append_right _ hq)
    exact (Same.inner (mode := mode) (W := fun m => p.looseWave m rs) (W' := fun m => p.looseWave m (rs.map (List.map σ)))
      (p.looseWave_same .held rs h.2 hr) (p.looseWave_same .idle rs h.2 hr) (P := fun x => ∀ c ∈ cr, x c = true) (P' := fun x => ∀ c ∈ cr.map σ, x c = true)
      (all_rename hc)).congr (fun x => by simp only [Prog.looseWave]) fun x => by simp only [Prog.looseWave, List.map_cons]
  | .prog ls, mode, rs, h, hf => by
    simp only [Prog.TakesLoose] at h
    exact (ls.looseWave_same mode rs h.2 hf).congr (fun x => by simp only [Prog.looseWave]) fun x => by simp only [Prog.looseWave]
  | .sized F, mode, rs, h, hf => by
    simp only [Prog.TakesLoose] at h
    exact ((F _).looseWave_same mode rs h hf).congr (fun x => by simp only [Prog.looseWave]) fun x => by simp only [Prog.looseWave, lengths_rename]
  | .inv attr p, mode, rs, h, hf => by
    simp only [Prog.TakesLoose] at h
    have hp : p.TakesLoose mode.inside rs := by rw [h.1]; exact takesLoose_ranges h.2.2.2.1
    exact ((p.looseWave_same mode rs hp hf).dagger hf).congr (fun x => by simp only [Prog.looseWave])
      fun x => by simp only [Prog.looseWave, flatten_rename]

theorem Lines.looseWave_same : (ls : Lines) → (mode : Mode) → (rs : List Reg) → ls.TakesLoose mode.inside rs → (∀ q ∈ rs.flatten, f (σ q) = false) →
    Same σ f (ls.looseWave mode rs) (ls.looseWave mode (rs.map (List.map σ)))
  | .nil, mode, rs, _, _ => Same.ket.congr (fun x => by simp only [Lines.looseWave]) fun x => by simp only [Lines.looseWave]
  | .plain p gs ls, mode, rs, h, hf => by
    simp only [Lines.TakesLoose] at h
    have hp := p.looseWave_same mode _ h.2.1 fun q hq => hf q (groups_sub rs h.1 q hq)
    rw [← groups_rename rs h.1] at hp
    exact (hp.comp (ls.looseWave_same mode rs h.2.2 hf)).congr (fun x => by simp only [Lines.looseWave]; rfl) fun x => by simp only [Lines.looseWave]; rfl
  | .control m p g gs ls, mode, rs, h, hf => by
    simp only [Lines.TakesLoose] at h
    have hs := groups_sub rs h.1
    rw [List.map_cons, List.flatten_cons] at hs
    have he := groups_rename (σ := σ) rs h.1
    rw [List.map_cons, List.map_cons, List.map_cons] at he
    obtain ⟨e1, e2⟩ := List.cons.inj he
    have hr : ∀ q ∈ (gs.map (groupReg rs)).flatten, f (σ q) = false := fun q hq => hf q (hs q (List.mem_append_right _ hq))
    have h1 := p.looseWave_same .held _ h.2.1 hr
    have h2 := p.looseWave_same .idle _ h.2.1 hr
    rw [← e2] at h1 h2
    exact ((Same.inner (mode := mode) (W := fun m => p.looseWave m (gs.map (groupReg rs))) (W' := fun m => p.looseWave m (gs.map (groupReg (rs.map (List.map σ)))))
      h1 h2 (P := fun x => Holds m (groupReg rs g) x) (P' := fun x => Holds m ((groupReg rs g).map σ) x)
      (holds_rename fun q hq => hf q (hs q (List.mem_append_left _ hq)))).comp (ls.looseWave_same mode rs h.2.2 hf)).congr
      (fun x => by simp only [Lines.looseWave]; rfl) fun x => by simp only [Lines.looseWave, e1]; rfl
end

end

end Verif
