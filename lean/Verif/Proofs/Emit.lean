import Verif.Proofs.Reg
import Verif.Model.Gates

/-! # What the gate methods of `LocalBuilder` add to the circuit -/

namespace Verif
open CliffordT

/-- `m` succeeds with result `a` in every builder state, adding `seg` to the circuit and changing nothing else -/
def Emits {α : Type} (m : M LocalBuilder α) (a : α) (seg : Pipeline) : Prop :=
  ∀ s, m s = .ok a { s with pipeline := s.pipeline ++ seg }

namespace Emits
variable {α γ : Type}

theorem pure (a : α) : Emits (Pure.pure a) a [] := by
  intro s; simp [pure_run]

theorem bind {m : M LocalBuilder α} {f : α → M LocalBuilder γ} {a : α} {c : γ} {p q : Pipeline}
    (h1 : Emits m a p) (h2 : Emits (f a) c q) : Emits (m >>= f) c (p ++ q) := by
  intro s
  rw [bind_ok (h1 s), h2]; simp

theorem unwrap {m : M LocalBuilder α} {a : α} {p : Pipeline} (h : Emits m a p) : Emits (unwrapM m) a p :=
  fun s => unwrapM_ok (h s)

theorem cast {m : M LocalBuilder α} {a a' : α} {p p' : Pipeline} (h : Emits m a p) (ha : a = a') (hp : p = p') :
    Emits m a' p' := by subst ha hp; exact h

end Emits

/-- one-qubit objects on every qubit of `r` -/
def each (r : Reg) (u : UObj) : Pipeline := r.map fun q => ([q], ⟨1, .unitary u⟩)

theorem push_emits (idx : List ℕ) (c : CObj) : Emits (LocalBuilder.push idx c) () [(idx, c)] := fun _ => rfl

theorem forM_push_emits (rs : List Reg) (c : CObj) :
    Emits (rs.forM fun r => LocalBuilder.push r c) () (rs.map fun r => (r, c)) := by
  induction rs with
  | nil => exact Emits.pure ()
  | cons r rs ih => exact Emits.bind (push_emits r c) ih

/-- `apply_circuit_object` of a one-qubit object -/
theorem applyCO_one_emits (r : Reg) (hr : r ≠ []) (hn : r.Nodup) (o : ObjType) :
    Emits (LocalBuilder.applyCO r ⟨1, o⟩) r (r.map fun q => ([q], ⟨1, o⟩)) := by
  unfold LocalBuilder.applyCO
  rw [if_pos (Or.inl rfl)]
  by_cases h : r.length > 1
  · rw [if_pos ⟨rfl, h⟩, splitAll_eq r hr hn]
    simp only [pure_bind]
    refine Emits.cast (Emits.bind (forM_push_emits _ _) (q := []) (c := r) ?_) rfl ?_
    · rw [mergeSingles r hr]; exact Emits.pure r
    · simp [List.map_map, Function.comp_def]
  · rw [if_neg (fun hh => h hh.2)]
    obtain ⟨q, rfl⟩ : ∃ q, r = [q] := by
      cases r with
      | nil => exact absurd rfl hr
      | cons q r =>
        cases r with
        | nil => exact ⟨q, rfl⟩
        | cons => simp at h
    exact Emits.bind (push_emits _ _) (Emits.pure _)

/-- `apply_circuit_object` of an object of the register's size (larger than one) -/
theorem applyCO_n_emits (r : Reg) (c : CObj) (h : c.n = r.length) (h1 : c.n ≠ 1) :
    Emits (LocalBuilder.applyCO r c) r [(r, c)] := by
  unfold LocalBuilder.applyCO
  rw [if_pos (Or.inr h), if_neg (fun hh => h1 hh.1)]
  exact Emits.bind (push_emits _ _) (Emits.pure _)

theorem applyCO_err (r : Reg) (c : CObj) (h : c.n ≠ r.length) (h1 : c.n ≠ 1) (s : LocalBuilder) :
    LocalBuilder.applyCO r c s = .error .error s := by
  unfold LocalBuilder.applyCO
  rw [if_neg (by tauto)]; rfl

theorem gate_emits (u : UObj) (r : Reg) (hr : r ≠ []) (hn : r.Nodup) (mk : LocalBuilder → CObj)
    (hm : ∀ s, mk s = ⟨1, .unitary u⟩) : Emits (gate mk r) r (each r u) := by
  intro s
  unfold gate
  rw [bind_ok (get_run s), hm]
  exact unwrapM_ok (applyCO_one_emits r hr hn _ s)

section
variable (r : Reg) (hr : r ≠ []) (hn : r.Nodup)
include hr hn
theorem x_emits : Emits (Gate.x r) r (each r .X) := gate_emits _ r hr hn _ fun _ => rfl
theorem y_emits : Emits (Gate.y r) r (each r .Y) := gate_emits _ r hr hn _ fun _ => rfl
theorem z_emits : Emits (Gate.z r) r (each r .Z) := gate_emits _ r hr hn _ fun _ => rfl
theorem h_emits : Emits (Gate.h r) r (each r .H) := gate_emits _ r hr hn _ fun _ => rfl
theorem s_emits : Emits (Gate.s r) r (each r .S) := gate_emits _ r hr hn _ fun _ => rfl
theorem t_emits : Emits (Gate.t r) r (each r .T) := gate_emits _ r hr hn _ fun _ => rfl
theorem sDagger_emits : Emits (sDagger r) r (each r .Z ++ each r .S) :=
  Emits.bind (z_emits r hr hn) (s_emits r hr hn)
theorem tDagger_emits : Emits (tDagger r) r (each r .Z ++ each r .S ++ each r .T) :=
  Emits.bind (sDagger_emits r hr hn) (t_emits r hr hn)
end

/-- one CNOT from `c` to every qubit of `r` -/
def cnots (c : ℕ) (r : Reg) : Pipeline := r.map fun q => ([c, q], ⟨2, .unitary .CNOT⟩)

theorem cnotStep_emits (c q : ℕ) (hcq : c ≠ q) (acc : List Reg) :
    Emits (cnotStep ([c], acc) [q]) ([c], acc ++ [[q]]) [([c, q], ⟨2, .unitary .CNOT⟩)] := by
  intro s
  unfold cnotStep
  simp only
  rw [LawfulReg.mergeTwo_eq _ _ (by simp), pure_bind, bind_ok (get_run s)]
  have h2 : CircuitBuilder.applyCO ([c] ++ [q]) (makeCnot s) s =
      .ok [c, q] { s with pipeline := s.pipeline ++ [([c, q], ⟨2, .unitary .CNOT⟩)] } :=
    applyCO_n_emits [c, q] ⟨2, .unitary .CNOT⟩ rfl (by decide) s
  rw [bind_ok h2, LawfulReg.splitRel_eq, splitE_head c [q] (by simp [hcq]) (by simp)]
  rfl

theorem cnotFold_emits (c : ℕ) (r : Reg) (h : c ∉ r) (acc : List Reg) :
    Emits ((r.map fun q => [q]).foldlM cnotStep ([c], acc)) ([c], acc ++ r.map fun q => [q]) (cnots c r) := by
  induction r generalizing acc with
  | nil => exact Emits.cast (Emits.pure _) (by simp) rfl
  | cons q r ih =>
    simp only [List.mem_cons, not_or] at h
    rw [List.map_cons, List.foldlM_cons]
    exact Emits.cast (Emits.bind (cnotStep_emits c q h.1 acc) (ih h.2 _)) (by simp) rfl

theorem cnot_emits (c : ℕ) (r : Reg) (hr : r ≠ []) (hn : (c :: r).Nodup) : Emits (cnot [c] r) ([c], r) (cnots c r) := by
  unfold cnot
  rw [if_neg (by simp), splitAll_eq r hr (List.nodup_cons.mp hn).2]
  simp only [pure_bind]
  refine Emits.cast (Emits.bind (cnotFold_emits c r (List.nodup_cons.mp hn).1 []) (q := []) (c := ([c], r)) ?_) rfl (by simp)
  simp only [List.nil_append]
  rw [mergeSingles r hr]
  exact Emits.pure _

/-- the circuit of `basic_toffoli` -/
def basicToffoliSeg (a b : ℕ) (r : Reg) : Pipeline :=
  each r .H ++ (cnots b r ++ ((each r .Z ++ each r .S ++ each r .T) ++ (cnots a r ++ (each r .T ++ (cnots b r ++
    ((each r .Z ++ each r .S ++ each r .T) ++ (cnots a r ++ (each [b] .T ++ (each r .T ++ (cnots a [b] ++ (each r .H ++
      (each [a] .T ++ ((each [b] .Z ++ each [b] .S ++ each [b] .T) ++ cnots a [b])))))))))))))

theorem basicToffoli_emits (a b : ℕ) (r : Reg) (hr : r ≠ []) (hn : (a :: b :: r).Nodup) :
    Emits (basicToffoli [a, b] r) ([a, b], r) (basicToffoliSeg a b r) := by
  have hab : a ≠ b := by simp at hn; tauto
  have har : (a :: r).Nodup := by simp at hn ⊢; tauto
  have hbr : (b :: r).Nodup := by simp at hn ⊢; tauto
  have hnr : r.Nodup := by simp at hn; tauto
  have habl : (a :: [b]).Nodup := by simp [hab]
  unfold basicToffoli basicToffoliSeg
  rw [if_pos (by rfl), LawfulReg.splitRel_eq, splitE_head a [b] habl (by simp)]
  simp only [liftE_ok, pure_bind]
  refine Emits.bind (h_emits r hr hnr) ?_
  refine Emits.bind (cnot_emits b r hr hbr).unwrap ?_
  refine Emits.bind (tDagger_emits r hr hnr) ?_
  refine Emits.bind (cnot_emits a r hr har).unwrap ?_
  refine Emits.bind (t_emits r hr hnr) ?_
  refine Emits.bind (cnot_emits b r hr hbr).unwrap ?_
  refine Emits.bind (tDagger_emits r hr hnr) ?_
  refine Emits.bind (cnot_emits a r hr har).unwrap ?_
  refine Emits.bind (t_emits [b] (by simp) (by simp)) ?_
  refine Emits.bind (t_emits r hr hnr) ?_
  refine Emits.bind (cnot_emits a [b] (by simp) habl).unwrap ?_
  refine Emits.bind (h_emits r hr hnr) ?_
  refine Emits.bind (t_emits [a] (by simp) (by simp)) ?_
  refine Emits.bind (tDagger_emits [b] (by simp) (by simp)) ?_
  refine Emits.cast (Emits.bind (cnot_emits a [b] (by simp) habl).unwrap (q := []) (c := ([a, b], r)) ?_) rfl (by simp)
  rw [LawfulReg.mergeTwo_eq _ _ (by simp)]
  exact Emits.pure _

end Verif
