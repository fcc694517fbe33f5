import Verif.Proofs.Struct

/-! # Structured programs outside conditions are unitary -/

namespace Verif
open Classical Complex Rooted

theorem lift_apply (V : Asg → Wave) (χ : Wave) (x : Asg) : lift V χ x = ∑ y ∈ χ.support, χ y * V y x := by
  show Finsupp.linearCombination ℂ V χ x = _
  rw [Finsupp.linearCombination_apply, Finsupp.sum, Finsupp.finset_sum_apply]
  rfl

/-- `U` keeps the qubits outside `Q` -/
def KeepsW (Q : List ℕ) (U : Asg → Wave) : Prop := ∀ x, On {y | ∀ q, q ∉ Q → y q = x q} (U x)

theorem KeepsW.zero {Q : List ℕ} {U : Asg → Wave} (h : KeepsW Q U) {x y : Asg} (hy : ¬ ∀ q, q ∉ Q → y q = x q) : U x y = 0 :=
  Finsupp.notMem_support_iff.mp fun hm => hy (on_iff.mp (h x) y hm)

theorem write_read {Q : List ℕ} {x y : Asg} (h : ∀ q, q ∉ Q → y q = x q) : writeQ Q (readQ Q y) x = y := by
  have h' := writeQ_readQ Q y
  funext q
  by_cases hq : q ∈ Q
  · have := congrFun h' q
    unfold writeQ at this ⊢
    rw [if_pos hq] at this ⊢
    exact this
  · rw [writeQ_not_mem _ _ _ _ hq, h q hq]

theorem dagger_keeps (Q : List ℕ) (U : Asg → Wave) : KeepsW Q (daggerW Q U) := fun x =>
  Submodule.sum_mem _ fun v _ => Submodule.smul_mem _ _ (On.ket fun q hq => writeQ_not_mem _ _ _ _ hq)

/-- the amplitudes of the adjoint -/
theorem dagger_amp {Q : List ℕ} (hn : Q.Nodup) {U : Asg → Wave} (h : KeepsW Q U) (x y : Asg) : daggerW Q U x y = (starRingEnd ℂ) (U y x) := by
  by_cases hy : ∀ q, q ∉ Q → y q = x q
  · unfold daggerW
    rw [Finsupp.finset_sum_apply, Finset.sum_eq_single (readQ Q y)]
    · rw [write_read hy]
      simp [ket]
    · intro v hv hne
      have : writeQ Q v x ≠ y := fun e => hne (by rw [← e, readQ_writeQ _ hn v (Finset.mem_range.mp hv)])
      simp [ket, this]
    · exact fun h => absurd (Finset.mem_range.mpr (readQ_lt Q y)) h
  · rw [(dagger_keeps Q U).zero hy, h.zero fun h' => hy fun q hq => (h' q hq).symm, map_zero]

theorem dagger_dagger {Q : List ℕ} (hn : Q.Nodup) {U : Asg → Wave} (h : KeepsW Q U) (x : Asg) : daggerW Q (daggerW Q U) x = U x := by
  ext y
  rw [dagger_amp hn (dagger_keeps Q U), dagger_amp hn h, Complex.conj_conj]

theorem touches_dagger {Q : List ℕ} (hn : Q.Nodup) {U : Asg → Wave} (h : KeepsW Q U) {q : ℕ} (ht : Touches q U) : Touches q (daggerW Q U) := by
  by_contra hc
  have h1 : ∀ x, ∀ y ∈ (daggerW Q U x).support, y q = x q := fun x y hy => by
    by_contra hne
    exact hc ⟨x, .inl ⟨y, hy, hne⟩⟩
  have h2 : ∀ x, daggerW Q U (flipQ q x) = lift (fun y => ket (flipQ q y)) (daggerW Q U x) := fun x => by
    by_contra hne
    exact hc ⟨x, .inr hne⟩
  have hamp : ∀ (ψ : Wave) y, lift (fun y => ket (flipQ q y)) ψ (flipQ q y) = ψ y := fun ψ y => by
    rw [← mvW_atQ, ← mv_atQ]
    have : mvW 1 (atQ q) = Finsupp.lmapDomain ℂ ℂ (mv 1 (atQ q)) := wave_ext fun y => by
      rw [mvW_ket, Finsupp.lmapDomain_apply]
      unfold Verif.ket
      rw [Finsupp.mapDomain_single]
    rw [this, Finsupp.lmapDomain_apply, Finsupp.mapDomain_apply (mv_injective _ _)]
  have hff : ∀ x : Asg, flipQ q (flipQ q x) = x := fun x => by
    funext p
    unfold flipQ
    by_cases hp : p = q
    · subst hp; simp
    · simp [Function.update_of_ne hp]
  obtain ⟨x, ⟨y, hy, hne⟩ | hne⟩ := ht
  · refine hne (h1 y x (Finsupp.mem_support_iff.mpr fun e => ?_)).symm
    rw [dagger_amp hn h] at e
    exact Finsupp.mem_support_iff.mp hy (by simpa using e)
  · refine hne ?_
    ext y
    have e := DFunLike.congr_fun (h2 (flipQ q y)) (flipQ q x)
    rw [hff, hamp, dagger_amp hn h, dagger_amp hn h] at e
    have e' := (starRingEnd ℂ).injective e
    have e'' := hamp (U x) (flipQ q y)
    rw [hff] at e''
    rw [e']
    exact e''.symm

/-- if the adjoint undoes the action, lengths are preserved -/
theorem normW_of_undo {Q : List ℕ} (hn : Q.Nodup) {U : Asg → Wave} (h : KeepsW Q U) (hu : ∀ x, lift (daggerW Q U) (U x) = ket x) (ψ : Wave) :
    normW (lift U ψ) = normW ψ := by
  have hund : lift (daggerW Q U) (lift U ψ) = ψ := by
    have : lift (daggerW Q U) ∘ₗ lift U = LinearMap.id := wave_ext fun x => by rw [LinearMap.comp_apply, lift_ket, hu, LinearMap.id_apply]
    exact LinearMap.congr_fun this ψ
  have hsq : ∀ χ : Wave, ((normW χ : ℝ) : ℂ) = ∑ y ∈ χ.support, (starRingEnd ℂ) (χ y) * χ y := fun χ => by
    unfold normW Finsupp.sum
    rw [Complex.ofReal_sum]
    exact Finset.sum_congr rfl fun y _ => (Complex.normSq_eq_conj_mul_self)
  apply Complex.ofReal_injective
  rw [hsq, hsq]
  have e1 : ∀ y, (starRingEnd ℂ) (lift U ψ y) = ∑ x ∈ ψ.support, (starRingEnd ℂ) (ψ x) * daggerW Q U y x := fun y => by
    rw [lift_apply, map_sum]
    exact Finset.sum_congr rfl fun x _ => by rw [map_mul, dagger_amp hn h]
  calc ∑ y ∈ (lift U ψ).support, (starRingEnd ℂ) (lift U ψ y) * lift U ψ y
      = ∑ y ∈ (lift U ψ).support, ∑ x ∈ ψ.support, (starRingEnd ℂ) (ψ x) * (lift U ψ y * daggerW Q U y x) := by
        refine Finset.sum_congr rfl fun y _ => ?_
        rw [e1, Finset.sum_mul]
        exact Finset.sum_congr rfl fun x _ => by ring
    _ = ∑ x ∈ ψ.support, ∑ y ∈ (lift U ψ).support, (starRingEnd ℂ) (ψ x) * (lift U ψ y * daggerW Q U y x) := Finset.sum_comm
    _ = ∑ x ∈ ψ.support, (starRingEnd ℂ) (ψ x) * ψ x := by
        refine Finset.sum_congr rfl fun x _ => ?_
        rw [← Finset.mul_sum, ← lift_apply, hund]

theorem Prog.keepsW (p : Prog) (inside : Bool) (rs : List Reg) (h : p.Takes inside rs) (hn : rs.flatten.Nodup) : KeepsW rs.flatten (p.wave inside rs) := by
  cases inside with
  | false => exact (p.moves 0 [] rfl rs h hn).keeps
  | true => exact (p.moves 1 [[]] rfl rs h hn).keeps

theorem ranges_nodup (sizes : List ℕ) : (ranges 0 sizes).flatten.Nodup := by rw [ranges_flatten]; exact List.nodup_range'

theorem Prog.anywhere (p : Prog) (inside : Bool) (rs : List Reg) (h : p.Takes inside rs) (hn : rs.flatten.Nodup) (x : Asg) :
    p.wave inside rs x = moveW rs.flatten (p.wave inside (ranges 0 (rs.map List.length))) x :=
  p.wave_move inside rs h hn (p.keepsW inside _ (p.takes_congr _ _ _ (ranges_map_length _ _) h) (ranges_nodup _)) x

theorem Prog.undo (p : Prog) (rs : List Reg) (h : p.Takes false rs) (hn : rs.flatten.Nodup) (x : Asg) :
    lift (daggerW rs.flatten (p.wave false rs)) (p.wave false rs x) = ket x ∧ lift (p.wave false rs) (daggerW rs.flatten (p.wave false rs) x) = ket x := by
  have hp := p.takes_congr _ _ _ (ranges_map_length (rs.map List.length) 0) h
  have hfl : (ranges 0 (rs.map List.length)).flatten = List.range rs.flatten.length := by
    rw [ranges_flatten, List.range_eq_range', List.length_flatten]
  have hm := p.moves 0 [] rfl _ hp (ranges_nodup _)
  have hk : ∀ z ∈ Low rs.flatten.length, On (Low rs.flatten.length) (p.wave false (ranges 0 (rs.map List.length)) z) := fun z hz =>
    (hm.keeps z).mono fun y hy i hi => by
      rw [hy i (by rw [hfl, List.mem_range]; omega)]
      exact hz i hi
  have hf := (hm.does ⟨[], rs.flatten.length, [], 0⟩ [] rfl (by
    rw [hfl, List.append_nil]; exact fresh_own _)).congrU (U' := p.wave false (ranges 0 (rs.map List.length))) fun x _ => by simp
  have hmv : p.wave false rs = _ := funext (p.anywhere false rs h hn)
  have hd : daggerW rs.flatten (p.wave false rs) = moveW rs.flatten (daggerW (List.range rs.flatten.length) (p.wave false (ranges 0 (rs.map List.length)))) := by
    funext x
    rw [← dagger_move hn hk, ← hmv]
  have hl := pull_low rs.flatten x
  obtain ⟨d1, d2, d3⟩ := dagger_spec hf hk hl
  rw [hd, hmv]
  exact ⟨by rw [lift_move _ hn _ _ _ (hk _ hl), moveW_eq, d3, embW_ket, emb_pull], by rw [lift_move _ hn _ _ _ d1, moveW_eq, d2, embW_ket, emb_pull]⟩

end Verif
