import Verif.Proofs.CondGP
import Verif.Proofs.Cond3
import Verif.Spec.Client
import Verif.Props.Refuse

/-! # Conditioned objects under a condition that is not met -/

namespace Verif
open Classical Complex RegOps CircuitBuilder Rooted TempBuilder

/-- the circuit has grown by elements that multiply every basis state of `X` with clean temporaries by one and the same number
of `G`, if they are those of the textbook -/
def Rests (G : Submonoid ℂ) (X : Set Asg) (b b' : LocalBuilder) : Prop :=
  ∃ seg, b'.pipeline = b.pipeline ++ seg ∧ ((∀ e ∈ seg, Textbook e) → ∃ c ∈ G, ∀ x ∈ X, Clean b x →
    runW rotAngle seg (ket x) = c • ket x ∧ Clean b' x)

namespace Rests
variable {G : Submonoid ℂ} {X Y : Set Asg} {b b' b'' : LocalBuilder}

theorem refl (b : LocalBuilder) : Rests G X b b :=
  ⟨[], by simp, fun _ => ⟨1, G.one_mem, fun x _ hx => ⟨by rw [one_smul]; rfl, hx⟩⟩⟩

theorem trans (h : Rests G X b b') (h' : Rests G X b' b'') : Rests G X b b'' := by
  obtain ⟨p, h1, h2⟩ := h
  obtain ⟨q, g1, g2⟩ := h'
  refine ⟨p ++ q, by rw [g1, h1, List.append_assoc], fun ht => ?_⟩
  obtain ⟨c, hc, h3⟩ := h2 fun e he => ht e (by simp [he])
  obtain ⟨d, hd, g3⟩ := g2 fun e he => ht e (by simp [he])
  refine ⟨c * d, G.mul_mem hc hd, fun x hx hcl => ?_⟩
  obtain ⟨h4, h5⟩ := h3 x hx hcl
  obtain ⟨g4, g5⟩ := g3 x hx h5
  refine ⟨?_, g5⟩
  rw [runW_append, h4, map_smul, g4, smul_smul]

theorem mono (h : Rests G X b b') (hs : Y ⊆ X) : Rests G Y b b' := by
  obtain ⟨p, h1, h2⟩ := h
  refine ⟨p, h1, fun ht => ?_⟩
  obtain ⟨c, hc, h3⟩ := h2 ht
  exact ⟨c, hc, fun x hx => h3 x (hs hx)⟩

end Rests

theorem Does.rests {β α : Type} [Rooted β] {m : M β α} {s s' : β} {a : α} {L : List ℕ} {U : Asg → Wave} (h : Does rotAngle m s a L U)
    (he : m s = .ok a s') {G : Submonoid ℂ} {X : Set Asg} {c : ℂ} (hc : c ∈ G) (hc0 : c ≠ 0) (hU : ∀ x ∈ X, U x = c • ket x) :
    Rests G X (root s) (root s') := by
  obtain ⟨s1, e1, -, -, h4⟩ := h
  obtain rfl : s' = s1 := by have := he.symm.trans e1; injection this
  obtain ⟨seg, h5, -, h6⟩ := h4.seg
  refine ⟨seg, h5, fun _ => ⟨c, hc, fun x hx hcl => ?_⟩⟩
  obtain ⟨h7, h8⟩ := h6 x hcl
  rw [hU x hx] at h7 h8
  refine ⟨h7, h8 x ?_⟩
  rw [Finsupp.mem_support_iff]
  simp [ket, hc0]

/-- the phases that come from a conditioned rotation -/
def Calms (G : Submonoid ℂ) (co : CObj) : Prop := ∀ ρ, co.object = .unitary (.Rz ρ) → exp ((-(rotAngle ρ / 2) : ℝ) * I) ∈ G

/-- what a conditioned object gives back, and what it does if the condition is not met -/
structure Idles (G : Submonoid ℂ) (C r : Reg) (co : CObj) (p : Reg × Reg) (b b' : LocalBuilder) : Prop where
  grows : ∃ e, p.1 = C ++ e
  kept : (r.length = 1 ∨ (co.object ≠ .unitary .S ∧ co.object ≠ .unitary .T)) → p = (C, r)
  rests : Rests G {x | ∃ q ∈ C, x q = false} b b'

theorem Does.idles {G : Submonoid ℂ} {C r : Reg} {co : CObj} {b b' : LocalBuilder} {p : Reg × Reg} {L : List ℕ} {U : Asg → Wave}
    (h : LocalBuilder.tryCond C r co b = .ok p b') (hd : Does rotAngle (LocalBuilder.tryCond C r co) b (C, r) L U) {c : ℂ} (hc : c ∈ G) (hc0 : c ≠ 0)
    (hU : ∀ x, (∃ q ∈ C, x q = false) → U x = c • ket x) : Idles G C r co p b b' := by
  have e : p = (C, r) := by
    obtain ⟨s1, e1, -⟩ := hd
    have := h.symm.trans e1
    injection this
  subst e
  exact ⟨⟨[], by simp⟩, fun _ => rfl, hd.rests h hc hc0 hU⟩

theorem ctlW_dead {C : Reg} {W : Wave →ₗ[ℂ] Wave} {x : Asg} (h : ∃ q ∈ C, x q = false) : ctlW C W x = (1 : ℂ) • ket x := by
  obtain ⟨q, hq, hx⟩ := h
  unfold ctlW
  rw [if_neg (fun hh => by simp [hh q hq] at hx), one_smul]

theorem ryPiBy_emits_rz (r : Reg) (hr : r ≠ []) (hn : r.Nodup) (m : ℤ) (hm : m ≠ 0) :
    ∃ p ρ q, Emits (Rotations.ryPiBy r m : M LocalBuilder Reg) r (p ++ ([(r, ⟨r.length, .unitary (.Rz ρ)⟩)] ++ q)) := by
  have h := ryRatio_emits r hr hn (fun r => LocalBuilder.rzRatio r (-(1 / (m : ℚ)))) _ (rzRatio_emits r _)
  rw [← List.append_assoc (each r .S)] at h
  refine ⟨each r .S ++ each r .H, .floating ((-(1 / (m : ℚ)) : ℚ) : ℝ), each r .H ++ (each r .Z ++ each r .S), ?_⟩
  show Emits (piByDefault _ r m) r _
  unfold piByDefault ratio1
  rw [if_neg hm, pure_bind]
  exact h

theorem Rests.of_not {G : Submonoid ℂ} {X : Set Asg} {b b' : LocalBuilder} (e : List ℕ × CObj) (he : ¬ Textbook e)
    (h : ∃ seg, b'.pipeline = b.pipeline ++ seg ∧ e ∈ seg) : Rests G X b b' := by
  obtain ⟨seg, h1, h2⟩ := h
  exact ⟨seg, h1, fun ht => absurd (ht e h2) he⟩

section
variable {G : Submonoid ℂ} {C r : Reg} {L : List ℕ} {b b' : LocalBuilder} {p : Reg × Reg} {n : ℕ} (hC : C ≠ []) (hr : r ≠ []) (ho : Own b (C ++ r ++ L))
include hC hr ho

theorem idles_y (h : LocalBuilder.tryCond C r ⟨n, .unitary .Y⟩ b = .ok p b') : Idles G C r ⟨n, .unitary .Y⟩ p b b' := by
  have hn : r.Nodup := (List.nodup_append.mp (List.nodup_append.mp ho.left).1).2.1
  have hq : ∀ p ∈ r, p ∈ C ++ r ++ L := by intro p hp; simp [hp]
  have g1 : ∀ s', Own s' (C ++ r ++ L) → Does rotAngle (Gate.s r) s' r (C ++ r ++ L) (fun x => eachW (uMat rotAngle 1 .S) r (ket x)) :=
    fun s' o => ((s_emits r hr hn).does rotAngle o (segOK_each o r hq .S rfl (by simp))).congrU fun x _ => each_eachW rotAngle r .S _
  have g2 : ∀ s', Own s' (C ++ r ++ L) → Does rotAngle (sDagger r) s' r (C ++ r ++ L)
      (fun x => (eachW (uMat rotAngle 1 .S) r ∘ₗ eachW (uMat rotAngle 1 .Z) r) (ket x)) :=
    fun s' o => ((sDagger_emits r hr hn).does rotAngle o (segOK_append (segOK_each o r hq .Z rfl (by simp))
      (segOK_each o r hq .S rfl (by simp)))).congrU fun x _ => by
        rw [runW_append, each_eachW, each_eachW]; rfl
  refine Does.idles h (conj_does hC hr ho g1 g2 (fun x => On.eachW _ r C (disj C r L b ho) x (On.ket (fun _ _ => rfl))) ?_)
    G.one_mem one_ne_zero fun x hx => ctlW_dead hx
  have hI : I * I = -1 := I_mul_I
  intro ψ
  show eachW (mat2 _ _ _ _) r (eachW (mat2 _ _ _ _) r (eachW (mat2 _ _ _ _) r ψ)) = ψ
  rw [eachW_comp r hn, eachW_comp r hn]
  refine Eq.trans ?_ (eachW_one r ψ)
  congr 3 <;> first | ring1 | linear_combination -hI

theorem idles_h (h : LocalBuilder.tryCond C r ⟨n, .unitary .H⟩ b = .ok p b') : Idles G C r ⟨n, .unitary .H⟩ p b b' := by
  by_cases hl : r.length = 1
  · obtain ⟨q, rfl⟩ := List.length_eq_one_iff.mp hl
    exact Does.idles h (condH_does C L q b hC ho n) G.one_mem one_ne_zero fun x hx => ctlW_dead hx
  have hn : r.Nodup := (List.nodup_append.mp (List.nodup_append.mp ho.left).1).2.1
  obtain ⟨p1, ρ, p2, e1⟩ := ryPiBy_emits_rz r hr hn 4 (by norm_num)
  obtain ⟨p3, ρ', p4, e3⟩ := ryPiBy_emits_rz r hr hn (-4) (by norm_num)
  unfold LocalBuilder.tryCond at h
  simp only at h
  rw [bind_ok (e1 b)] at h
  obtain ⟨b2, e2, -, -, v2⟩ := toffoli_does rotAngle C r L _ hC hr (ho.pipe (b.pipeline ++ (p1 ++ ([(r, ⟨r.length, .unitary (.Rz ρ)⟩)] ++ p2))))
  rw [bind_ok e2] at h
  simp only at h
  rw [bind_ok (e3 b2)] at h
  obtain ⟨rfl, rfl⟩ : (C, r) = p ∧ _ = b' := by
    injection h with h1 h2; exact ⟨h1, h2⟩
  refine ⟨⟨[], by simp⟩, fun _ => rfl, Rests.of_not (r, ⟨r.length, .unitary (.Rz ρ)⟩) (fun ht => hl (ht.1 ρ rfl)) ?_⟩
  obtain ⟨seg, h5, -⟩ := v2.seg
  change b2.pipeline = (b.pipeline ++ _) ++ seg at h5
  refine ⟨_, show b2.pipeline ++ _ = b.pipeline ++ _ by rw [h5, List.append_assoc, List.append_assoc], ?_⟩
  simp

theorem idles_phase {g : Reg → M LocalBuilder Reg} {u : UObj} {a : ℂ} (hu : uMat rotAngle 1 u = mat2 1 0 0 a) (hST : u = .S ∨ u = .T)
    (hs : u.Shape 1) (hgp : (∀ ρ, u ≠ .GlobalPhase ρ) ∧ ∀ d, u ≠ .MAT d) (he : ∀ t, Emits (g [t]) [t] (each [t] u))
    (h : LocalBuilder.condPhase g C r b = .ok p b') : Idles G C r ⟨n, .unitary u⟩ p b b' := by
  rcases List.eq_nil_or_concat r with hz | ⟨r0, q, rfl⟩
  · exact absurd hz hr
  simp only [List.concat_eq_append] at *
  have hd := condPhase_many (ang := rotAngle) hu hs hgp he C r0 q L b hC ho
  have e : p = (C ++ r0, [q]) := by
    obtain ⟨s1, e1, -⟩ := hd
    have := h.symm.trans e1
    injection this
  subst e
  refine ⟨⟨r0, rfl⟩, ?_, hd.rests h G.one_mem one_ne_zero fun x hx => ?_⟩
  · rintro (hl | ⟨h1, h2⟩)
    · have : r0 = [] := by simpa using hl
      subst this
      simp
    · rcases hST with rfl | rfl
      · exact absurd rfl h1
      · exact absurd rfl h2
  · obtain ⟨c, hc, hx⟩ := hx
    rw [if_neg (fun hh => by simp [hh c (by simp [hc])] at hx)]

omit hr in
theorem idles_gp (ρ : Rot) (h : LocalBuilder.tryCond C r ⟨n, .unitary (.GlobalPhase ρ)⟩ b = .ok p b') :
    Idles G C r ⟨n, .unitary (.GlobalPhase ρ)⟩ p b b' := by
  obtain ⟨s', seg, seg', t, ρ1, ρ2, e1, -, e2, -⟩ := condGP_circuit C r (r ++ L) b hC (by rw [← List.append_assoc]; exact ho) n ρ
  obtain ⟨rfl, rfl⟩ : p = (C, r) ∧ b' = s' := by
    have := h.symm.trans e1
    injection this with h1 h2; exact ⟨h1, h2⟩
  refine ⟨⟨[], by simp⟩, fun _ => rfl, Rests.of_not ([t], ⟨1, .unitary (.GlobalPhase ρ2)⟩) (fun ht => ht.2.1 ρ2 rfl) ?_⟩
  exact ⟨_, by rw [e2, List.append_assoc, List.append_assoc], by simp⟩

theorem swap_fails (h : LocalBuilder.tryCond C r ⟨n, .unitary .SWAP⟩ b = .ok p b') : False := by
  have hn : r.Nodup := (List.nodup_append.mp (List.nodup_append.mp ho.left).1).2.1
  by_cases h2 : r.length % 2 = 0
  · rw [Props.tryCond_swap b C r n hC hr hn h2] at h
    cases h
  · unfold LocalBuilder.tryCond at h
    simp only [ne_eq, h2, not_false_eq_true, if_true] at h
    cases h

end

/-- whatever object is conditioned -/
theorem tryCond_idles {G : Submonoid ℂ} {C r : Reg} {L : List ℕ} {b b' : LocalBuilder} {p : Reg × Reg} (co : CObj) (hG : Calms G co)
    (hC : C ≠ []) (hr : r ≠ []) (ho : Own b (C ++ r ++ L)) (h : LocalBuilder.tryCond C r co b = .ok p b') : Idles G C r co p b b' := by
  obtain ⟨n, o⟩ := co
  cases o with
  | meas o => exact absurd h (by unfold LocalBuilder.tryCond; simp [throw_run])
  | unitary u =>
    cases u with
    | X => exact Does.idles h (condX_does rotAngle C r L b hC ho n hr) G.one_mem one_ne_zero fun x hx => ctlW_dead hx
    | Y => exact idles_y hC hr ho h
    | Z => exact Does.idles h (condZ_does rotAngle C r L b hC ho n hr) G.one_mem one_ne_zero fun x hx => ctlW_dead hx
    | H => exact idles_h hC hr ho h
    | S => exact idles_phase hC hr ho rfl (.inl rfl) rfl (by simp) (fun t => s_emits [t] (by simp) (by simp)) h
    | T => exact idles_phase hC hr ho rfl (.inr rfl) rfl (by simp) (fun t => t_emits [t] (by simp) (by simp)) h
    | CNOT =>
      by_cases hl : r.length = 2
      · obtain ⟨c, d, rfl⟩ := List.length_eq_two.mp hl
        exact Does.idles h (condCnot_does rotAngle C L c d b hC ho n) G.one_mem one_ne_zero fun x hx => ctlW_dead hx
      · unfold LocalBuilder.tryCond at h
        simp only [ne_eq, hl, not_false_eq_true, if_true] at h
        cases h
    | SWAP => exact (swap_fails hC hr ho h).elim
    | MAT d => exact absurd h (by unfold LocalBuilder.tryCond; simp [throw_run])
    | Rz ρ =>
      refine Does.idles h (condRz_does C r L b hC hr ho n ρ) (hG ρ rfl) (exp_ne_zero _) fun x hx => ?_
      obtain ⟨c, hc, hx⟩ := hx
      rw [if_neg (fun hh => by simp [hh c (by simp [hc])] at hx)]
    | GlobalPhase ρ => exact idles_gp hC ho ρ h

end Verif
