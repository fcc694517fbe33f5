import Verif.Proofs.Emit

/-! # `swap` and the rotations -/

namespace Verif
open CliffordT

/-! ## `swap` -/

/-- the circuit of `swap` on one pair of qubits -/
def swapSeg1 (p : ℕ × ℕ) : Pipeline := cnots p.1 [p.2] ++ (cnots p.2 [p.1] ++ cnots p.1 [p.2])

/-- the circuit of `swap` -/
def swapSeg (ra rb : Reg) : Pipeline := ((ra.zip rb).map swapSeg1).flatten

theorem swapPair_emits (a b : ℕ) (h : a ≠ b) : Emits (swapPair [a] [b]) ([a], [b]) (swapSeg1 (a, b)) := by
  unfold swapPair swapSeg1
  rw [if_neg (by simp)]
  simp only [pure_bind]
  apply Emits.unwrap
  refine Emits.bind (cnot_emits a [b] (by simp) (by simp [h])) ?_
  refine Emits.bind (cnot_emits b [a] (by simp) (by simp [h.symm])) ?_
  exact cnot_emits a [b] (by simp) (by simp [h])

theorem mapM_emits {α γ : Type} (f : α → M LocalBuilder γ) (g : α → γ) (seg : α → Pipeline) (l : List α)
    (h : ∀ a ∈ l, Emits (f a) (g a) (seg a)) : Emits (l.mapM f) (l.map g) (l.map seg).flatten := by
  induction l with
  | nil => exact Emits.pure []
  | cons a l ih =>
    rw [List.mapM_cons]
    refine Emits.bind (h a (by simp)) ?_
    refine Emits.cast (Emits.bind (ih fun b hb => h b (by simp [hb])) (Emits.pure _)) rfl (by simp)

theorem swap_emits (ra rb : Reg) (hl : ra.length = rb.length) (hr : ra ≠ []) (hn : (ra ++ rb).Nodup) :
    Emits (swap ra rb) (ra, rb) (swapSeg ra rb) := by
  have hrb : rb ≠ [] := by rintro rfl; simp at hl; exact hr hl
  obtain ⟨n1, n2, nd⟩ := List.nodup_append.mp hn
  unfold swap
  rw [if_pos hl, splitAll_eq ra hr n1]
  simp only [pure_bind]
  rw [splitAll_eq rb hrb n2]
  simp only [pure_bind]
  rw [List.zip_map]
  have hm := mapM_emits (fun p : Reg × Reg => swapPair (β := LocalBuilder) p.1 p.2) (fun p => p)
    (fun p => swapSeg1 (p.1.headD 0, p.2.headD 0))
    ((ra.zip rb).map (Prod.map (fun q => [q]) (fun q => [q]))) (by
      intro p hp
      simp only [List.mem_map, Prod.exists] at hp
      obtain ⟨a, b, hab, rfl⟩ := hp
      obtain ⟨h1, h2⟩ := List.of_mem_zip hab
      exact swapPair_emits a b (nd a h1 b h2))
  refine Emits.cast (Emits.bind hm (q := []) (c := (ra, rb)) ?_) rfl ?_
  · have e1 : ((((ra.zip rb).map (Prod.map (fun q => [q]) (fun q => [q]))).map fun p => p).map Prod.fst : List Reg) =
        ra.map fun q => [q] := by
      simp only [List.map_id', List.map_map, Function.comp_def, Prod.map_fst]
      rw [show (fun p : ℕ × ℕ => [p.1]) = (fun q => [q]) ∘ Prod.fst from rfl, ← List.map_map,
        List.map_fst_zip (by omega)]
    have e2 : ((((ra.zip rb).map (Prod.map (fun q => [q]) (fun q => [q]))).map fun p => p).map Prod.snd : List Reg) =
        rb.map fun q => [q] := by
      simp only [List.map_id', List.map_map, Function.comp_def, Prod.map_snd]
      rw [show (fun p : ℕ × ℕ => [p.2]) = (fun q => [q]) ∘ Prod.snd from rfl, ← List.map_map,
        List.map_snd_zip (by omega)]
    rw [e1, e2, mergeSingles ra hr]
    simp only [pure_bind, unwrapO_some]
    rw [mergeSingles rb hrb]
    exact Emits.pure _
  · unfold swapSeg
    simp [List.map_map, Function.comp_def]

theorem swap_err (ra rb : Reg) (hl : ra.length ≠ rb.length) (s : LocalBuilder) :
    swap ra rb s = .error .error s := by
  unfold swap
  rw [if_neg hl]; rfl

theorem cnot_err (cr r : Reg) (hl : 1 < cr.length) (s : LocalBuilder) : cnot cr r s = .error .error s := by
  unfold cnot
  rw [if_pos hl]; rfl

theorem basicToffoli_err (cr r : Reg) (hl : cr.length ≠ 2) (s : LocalBuilder) :
    basicToffoli cr r s = .error .error s := by
  unfold basicToffoli
  rw [if_neg hl]; rfl

/-! ## rotations: the object covers the whole register -/

/-- `apply_circuit_object` of an object declared as large as the register -/
theorem applyCO_reg_emits (r : Reg) (o : ObjType) : Emits (LocalBuilder.applyCO r ⟨r.length, o⟩) r [(r, ⟨r.length, o⟩)] := by
  unfold LocalBuilder.applyCO
  simp only
  rw [if_pos (Or.inr True.intro), if_neg (by omega)]
  exact Emits.bind (push_emits _ _) (Emits.pure _)

theorem rz_emits (r : Reg) (θ : ℝ) :
    Emits (LocalBuilder.rz r θ) r [(r, ⟨r.length, .unitary (.Rz (.floating θ))⟩)] := (applyCO_reg_emits r _).unwrap

theorem rzPiBy_emits (r : Reg) (m : ℤ) (hm : m ≠ 0) :
    Emits (LocalBuilder.rzPiBy r m) r [(r, ⟨r.length, .unitary (.Rz (.piRational (1 / (m : ℚ))))⟩)] := by
  unfold LocalBuilder.rzPiBy
  rw [if_neg hm]
  exact applyCO_reg_emits r _

theorem rzRatio_emits (r : Reg) (q : ℚ) :
    Emits (LocalBuilder.rzRatio r q) r [(r, ⟨r.length, .unitary (.Rz (.floating (q : ℝ)))⟩)] := rz_emits r q

section
variable (r : Reg) (hr : r ≠ []) (hn : r.Nodup)
include hr hn

theorem rx_emits (rz : Reg → M LocalBuilder Reg) (seg : Pipeline) (h : Emits (rz r) r seg) :
    Emits (do let r ← Gate.h r; let r ← rz r; Gate.h r) r (each r .H ++ (seg ++ each r .H)) :=
  Emits.bind (h_emits r hr hn) (Emits.bind h (h_emits r hr hn))

theorem ry_emits (rz : Reg → M LocalBuilder Reg) (seg : Pipeline) (h : Emits (rz r) r seg) :
    Emits (do let r ← sDagger r; let r ← Gate.h r; let r ← rz r; let r ← Gate.h r; Gate.s r) r
      ((each r .Z ++ each r .S) ++ (each r .H ++ (seg ++ (each r .H ++ each r .S)))) :=
  Emits.bind (sDagger_emits r hr hn) (Emits.bind (h_emits r hr hn) (Emits.bind h
    (Emits.bind (h_emits r hr hn) (s_emits r hr hn))))

theorem ryRatio_emits (rz : Reg → M LocalBuilder Reg) (seg : Pipeline) (h : Emits (rz r) r seg) :
    Emits (do let r ← Gate.s r; let r ← Gate.h r; let r ← rz r; let r ← Gate.h r; sDagger r) r
      (each r .S ++ (each r .H ++ (seg ++ (each r .H ++ (each r .Z ++ each r .S))))) :=
  Emits.bind (s_emits r hr hn) (Emits.bind (h_emits r hr hn) (Emits.bind h
    (Emits.bind (h_emits r hr hn) (sDagger_emits r hr hn))))

end

theorem globalPhase_emits (r : Reg) (θ : ℝ) :
    Emits (LocalBuilder.applyGlobalPhase r θ) r [(r, ⟨r.length, .unitary (.GlobalPhase (.floating θ))⟩)] :=
  (applyCO_reg_emits r _).unwrap

end Verif
