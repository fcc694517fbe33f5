import Verif.Proofs.Client
import Verif.Proofs.InvertFn

/-! # The circuits of a program's functions and their inverses -/

namespace Verif
open RegOps CircuitBuilder Ledger

/-- the circuit a function of a program makes in a new builder -/
theorem Client.built [Stock] {ok : CObj → Prop} (hok : ∀ c, ok c → Stock.Given c) {f : List Reg → M LocalBuilder (List Reg)}
    (hf : Client ok 0 f) {sizes : List ℕ} {sc : Pipeline} (h : buildSub sizes f = .ok sc) :
    ∃ n, ∀ e ∈ sc, Placed n e ∧ Stock.Ok e.2 := by
  have hp : Passes (do
      let rs ← sizes.mapM LocalBuilder.register
      f rs : M LocalBuilder (List Reg)) [] fun rs => rs := by
    refine Passes.bind [] ((Passes.mapM (fun _ => []) (fun r : Reg => [r]) sizes fun n _ => LocalBuilder.passes_register n).mono
      (pre' := []) (by rw [map_nil_flatten]) fun rs => (by rw [map_one_flatten])) (by qperm) fun rs => ?_
    exact (hf.keeping hok rs).mono (by qperm) fun _ => List.Subperm.refl _
  have h0 : Holds LocalBuilder.default ([] ++ []) :=
    ⟨⟨by simp [LocalBuilder.default], by simp [LocalBuilder.default], by simp [LocalBuilder.default]⟩, by simp,
      by simp [LocalBuilder.default]⟩
  obtain ⟨h1, -⟩ := hp LocalBuilder.default [] h0
  unfold buildSub at h
  split at h
  · rename_i a b' e
    cases h
    refine ⟨b'.n, fun e' he' => ?_⟩
    obtain ⟨a1, a2, a3, a4, a5⟩ := (h1 _ _ e).1.2.2 e' he'
    exact ⟨⟨a1, a2, a3, a4⟩, a5⟩
  · cases h

/-- inverting an apt gate does not fail, and gives gates of the same size -/
theorem invertObject_apt (c : CObj) (h : Apt c) (u : UObj) (hu : c.object = .unitary u) :
    ∃ cs, invertObject c = .ok cs ∧ cs ≠ [] ∧ ∀ c' ∈ cs, c'.n = c.n ∧ ∃ v, c'.object = .unitary v := by
  obtain ⟨n, o⟩ := c
  cases hu
  cases u with
  | MAT data =>
    obtain ⟨ρ, e⟩ | ⟨⟨h1, h2⟩, h3⟩ := h _ rfl
    · cases e
    · obtain ⟨d, d1, -, -⟩ := daggerData_eq n data h1
      exact ⟨[⟨n, .unitary (.MAT d)⟩], by simp only [invertObject, d1, Except.map, List.map_cons, List.map_nil], by simp, by simp⟩
  | _ => exact ⟨_, rfl, by simp, by simp⟩

/-- the inverse of an apt circuit: nothing but measurements can go wrong -/
theorem invertSub_apt (n : ℕ) (sc : Pipeline) (h : ∀ e ∈ sc, Placed n e ∧ Apt e.2) :
    ((∃ e ∈ sc, ∃ t, e.2.object = .meas t) → invertSub sc = .error .error) ∧
    ((∀ e ∈ sc, ∀ t, e.2.object ≠ .meas t) → ∃ p, invertSub sc = .ok p ∧
      (∀ e ∈ p, Placed n e ∧ Apt e.2 ∧ ∃ u, e.2.object = .unitary u) ∧ ∀ q, (∃ e ∈ p, q ∈ e.1) ↔ ∃ e ∈ sc, q ∈ e.1) := by
  induction sc with
  | nil => exact ⟨by simp, fun _ => ⟨[], rfl, by simp, by simp⟩⟩
  | cons e sc ih =>
    obtain ⟨ih1, ih2⟩ := ih fun e' he' => h e' (by simp [he'])
    obtain ⟨hP, hA⟩ := h e (by simp)
    rw [invertSub_cons]
    constructor
    · rintro ⟨e', he', t, ht⟩
      by_cases hsc : ∃ e ∈ sc, ∃ t, e.2.object = .meas t
      · rw [ih1 hsc]; rfl
      · obtain ⟨p, hp, -⟩ := ih2 fun e he t ht => hsc ⟨e, he, t, ht⟩
        rcases List.mem_cons.mp he' with rfl | he'
        · rw [hp]
          unfold invertObject
          rw [ht]
          rfl
        · exact absurd ⟨e', he', t, ht⟩ hsc
    · intro hm
      obtain ⟨p, hp, p1, p2⟩ := ih2 fun e' he' => hm e' (by simp [he'])
      cases ho : e.2.object with
      | meas t => exact absurd ho (hm e (by simp) t)
      | unitary u =>
        obtain ⟨cs, c1, c2, c3⟩ := invertObject_apt e.2 hA u ho
        refine ⟨p ++ cs.map fun co => (e.1, co), by rw [hp, c1]; rfl, ?_, ?_⟩
        · intro e' he'
          rcases List.mem_append.mp he' with he' | he'
          · exact p1 e' he'
          · obtain ⟨c, hc, rfl⟩ := List.mem_map.mp he'
            obtain ⟨k1, k2⟩ := c3 c hc
            exact ⟨⟨hP.1, hP.2.1, hP.2.2.1, k1.trans hP.2.2.2⟩, apt_invert e.2 cs hA c1 c hc, k2⟩
        · intro q
          simp only [List.mem_append, List.mem_map, List.mem_cons, or_and_right, exists_or, exists_eq_left, p2]
          rw [or_comm]
          refine or_congr ⟨?_, ?_⟩ Iff.rfl
          · rintro ⟨e', ⟨c, -, rfl⟩, hq⟩; exact hq
          · intro hq
            obtain ⟨c, hc⟩ := List.exists_mem_of_ne_nil cs c2
            exact ⟨(e.1, c), ⟨c, hc, rfl⟩, hq⟩

section
variable {β : Type} [Recursive β] [LawfulReg β]

/-- inverting fails as the function that is to be inverted -/
theorem inverter_build_err {f : List Reg → M LocalBuilder (List Reg)} {rs : List Reg} {x : Fail}
    (hb : buildSub (rs.map List.length) f = .error x) (s : β) :
    inverter rs f s = .error x s ∧ invertFn f rs s = .error x s := by
  constructor
  · unfold inverter inverterArgs
    rw [show buildSub (rs.map List.length) (fun rs => f rs) = _ from hb]
    rfl
  · unfold invertFn
    rw [hb]
    rfl

/-- inverting fails as the application of the inverse does -/
theorem inverter_err {f : List Reg → M LocalBuilder (List Reg)} {rs : List Reg} (hne : rs ≠ []) (hr : ∀ r ∈ rs, r ≠ [])
    {sc : Pipeline} (hb : buildSub (rs.map List.length) f = .ok sc) {s s' : β} {x : Fail}
    (h : applyInverted sc rs.flatten s = .error x s') :
    inverter rs f s = .error x s' ∧ invertFn f rs s = .error x s' := by
  constructor
  · unfold inverter inverterArgs
    rw [show buildSub (rs.map List.length) (fun rs => f rs) = _ from hb, liftE_ok, pure_bind,
      mergeRegisters_ne _ hne hr, pure_bind, unwrapO_some, pure_bind]
    exact bind_err h
  · unfold invertFn
    rw [hb, liftE_ok, pure_bind, mergeRegisters_ne _ hne hr, pure_bind, unwrapO_some, pure_bind]
    exact bind_err h

/-- without registers there is nothing to apply the inverse to -/
theorem inverter_nil {f : List Reg → M LocalBuilder (List Reg)} {sc : Pipeline} (hb : buildSub [] f = .ok sc) (s : β) :
    inverter [] f s = .error .panic s ∧ invertFn f [] s = .error .panic s := by
  constructor
  · unfold inverter inverterArgs
    rw [show buildSub (([] : List Reg).map List.length) (fun rs => f rs) = _ from hb]
    rfl
  · unfold invertFn
    rw [show buildSub (([] : List Reg).map List.length) f = _ from hb]
    rfl

end

end Verif
