import Verif.Proofs.SubDoes
import Mathlib.LinearAlgebra.FiniteDimensional.Basic
import Mathlib.LinearAlgebra.FiniteDimensional.Lemmas

/-! # Inverting functions -/

namespace Verif
open Classical Complex RegOps CircuitBuilder TempBuilder Rooted

variable {ang : Rot → ℝ}

/-- the basis states of the qubits below `k`, all others 0 -/
def Low (k : ℕ) : Set Asg := {y | ∀ i, k ≤ i → y i = false}

theorem low_finite (k : ℕ) : (Low k).Finite := by
  have : Finite (Low k) := by
    refine Finite.of_injective (fun (y : Low k) (i : Fin k) => y.1 i) fun y z h => ?_
    apply Subtype.ext
    funext i
    by_cases hi : i < k
    · exact congrFun h ⟨i, hi⟩
    · rw [y.2 i (by omega), z.2 i (by omega)]
  exact Set.toFinite _

/-- an injective map that keeps a finite set of qubits has an inverse that keeps it -/
theorem inverse_on (S : Set Asg) (hS : S.Finite) (A B : Wave →ₗ[ℂ] Wave) (hAB : ∀ ψ, B (A ψ) = ψ)
    (hA : ∀ z ∈ S, On S (A (ket z))) : ∀ z ∈ S, On S (B (ket z)) := by
  have hm : ∀ ψ ∈ Finsupp.supported ℂ ℂ S, A ψ ∈ Finsupp.supported ℂ ℂ S := by
    intro ψ hψ
    exact On.map (S := S) hψ A hA
  have : Finite S := hS
  have : Module.Finite ℂ (Finsupp.supported ℂ ℂ S) :=
    Module.Finite.equiv (Finsupp.supportedEquivFinsupp (R := ℂ) (M := ℂ) S).symm
  let A' : Finsupp.supported ℂ ℂ S →ₗ[ℂ] Finsupp.supported ℂ ℂ S := A.restrict hm
  have inj : Function.Injective A' := by
    intro a b h
    apply Subtype.ext
    have h' : A a.1 = A b.1 := congrArg Subtype.val h
    rw [← hAB a.1, h', hAB]
  have sur := LinearMap.surjective_of_injective inj
  intro z hz
  obtain ⟨φ, hφ⟩ := sur ⟨ket z, On.ket hz⟩
  have h' : A φ.1 = ket z := congrArg Subtype.val hφ
  rw [← h', hAB]
  exact φ.2

/-! ## the registers of a new builder -/

theorem ranges_flatten (sizes : List ℕ) (n : ℕ) : (ranges n sizes).flatten = List.range' n sizes.sum := by
  induction sizes generalizing n with
  | nil => rfl
  | cons k ks ih =>
    rw [ranges, List.flatten_cons, ih, List.sum_cons, List.range'_append_1]

theorem ranges_ne (sizes : List ℕ) (hpos : ∀ k ∈ sizes, 0 < k) (n : ℕ) : ∀ g ∈ ranges n sizes, g ≠ [] := by
  induction sizes generalizing n with
  | nil => simp [ranges]
  | cons k ks ih =>
    intro g hg
    rw [ranges, List.mem_cons] at hg
    rcases hg with rfl | hg
    · have := hpos k (by simp)
      simp; omega
    · exact ih (fun k' hk' => hpos k' (by simp [hk'])) _ g hg

theorem ranges_map_length (sizes : List ℕ) (n : ℕ) : (ranges n sizes).map List.length = sizes := by
  induction sizes generalizing n with
  | nil => rfl
  | cons k ks ih => simp [ranges, ih]

theorem at_ranges (rs : List Reg) (pre : Reg) :
    (ranges pre.length (rs.map List.length)).map (at' (pre ++ rs.flatten)) = rs := by
  induction rs generalizing pre with
  | nil => rfl
  | cons r rs ih =>
    rw [List.map_cons, ranges, List.map_cons]
    congr 1
    · unfold at'
      apply List.ext_getElem
      · simp
      · intro i h1 h2
        simp at h1
        simp only [List.getElem_map, List.getElem_range', one_mul, List.flatten_cons]
        rw [List.getD_append_right _ _ _ _ (by omega), Nat.add_sub_cancel_left, List.getD_append _ _ _ _ h1,
          List.getD_eq_getElem _ _ h1]
    · have := ih (pre ++ r)
      rw [List.length_append, List.append_assoc] at this
      exact this

theorem registers_run (sizes : List ℕ) (hpos : ∀ k ∈ sizes, 0 < k) (b : LocalBuilder) :
    sizes.mapM LocalBuilder.register b = .ok (ranges b.n sizes) { b with n := b.n + sizes.sum } := by
  induction sizes generalizing b with
  | nil => rfl
  | cons k ks ih =>
    have hk := hpos k (by simp)
    have h1 : LocalBuilder.register k b = .ok (List.range' b.n k) { b with n := b.n + k } := by
      unfold LocalBuilder.register
      rw [bind_ok (get_run b)]
      obtain ⟨k', rfl⟩ : ∃ k', k = k' + 1 := ⟨k - 1, by omega⟩
      rfl
    rw [List.mapM_cons, bind_ok h1, bind_ok (ih (fun k' hk' => hpos k' (by simp [hk'])) _), ranges, List.sum_cons,
      ← add_assoc]
    rfl

theorem fresh_own (k : ℕ) : Own (⟨[], k, [], 0⟩ : LocalBuilder) (List.range k) :=
  ⟨by simp, by simpa using List.nodup_range, by simp⟩

theorem fresh_clean (k : ℕ) (z : Asg) : Clean (⟨[], k, [], 0⟩ : LocalBuilder) z ↔ z ∈ Low k := by
  unfold Clean Low
  simp

/-- the circuit of `f` in a new builder -/
theorem buildSub_ok {f : List Reg → M LocalBuilder (List Reg)} {sizes : List ℕ} (hpos : ∀ k ∈ sizes, 0 < k)
    {a : List Reg} {b : LocalBuilder} (h : f (ranges 0 sizes) ⟨[], sizes.sum, [], 0⟩ = .ok a b) :
    buildSub sizes f = .ok b.pipeline := by
  unfold buildSub
  have h1 := registers_run sizes hpos LocalBuilder.default
  rw [show LocalBuilder.default.n = 0 from rfl, Nat.zero_add] at h1
  have h2 : (do
      let rs ← sizes.mapM LocalBuilder.register
      f rs : M LocalBuilder (List Reg)) LocalBuilder.default = .ok a b := by
    rw [bind_ok h1]
    exact h
  rw [h2]

section
variable {β : Type} [Recursive β] [Rooted β] [LawfulReg β]

/-- both kinds of inverting apply the inverse circuit to the merged registers -/
theorem inverter_of {f : List Reg → M LocalBuilder (List Reg)} {rs : List Reg} (hne : rs ≠ []) (hr : ∀ r ∈ rs, r ≠ [])
    (hn : rs.flatten.Nodup) {sc p : Pipeline} (hb : buildSub (rs.map List.length) f = .ok sc) (hp : invertSub sc = .ok p)
    {s s' : β} (h : Recursive.applySub p rs.flatten s = .ok rs.flatten s') :
    inverter rs f s = .ok rs s' ∧ invertFn f rs s = .ok rs s' := by
  have hpos : ∀ k ∈ rs.map List.length, 0 < k := by
    intro k hk
    simp only [List.mem_map] at hk
    obtain ⟨r, h1, rfl⟩ := hk
    exact List.length_pos_iff.mpr (hr r h1)
  have hfl : rs.flatten ≠ [] := by
    cases rs with
    | nil => exact absurd rfl hne
    | cons r rs => have := hr r (by simp); simp [this]
  have hlen : (rs.map List.length).sum = rs.flatten.length := by rw [List.length_flatten]
  have hsplit : (splitGroups rs.flatten (ranges 0 (rs.map List.length)) : M β _) = pure (.allSelected rs) := by
    rw [splitGroups_eq rs.flatten _ hfl hn (ranges_ne _ hpos 0), if_pos]
    · have := at_ranges rs []
      rw [List.length_nil, List.nil_append] at this
      rw [this]
    · rw [ranges_flatten, List.filter_eq_nil_iff]
      intro i hi
      rw [List.mem_range] at hi
      rw [← hlen] at hi
      simp only [List.mem_range'_1]
      simp [hi]
    · rw [ranges_flatten]; exact List.nodup_range'
    · rw [ranges_flatten, hlen]
      intro i hi
      rw [List.mem_range'_1] at hi
      omega
  have happ : applyInverted sc rs.flatten s = .ok rs.flatten s' := by
    unfold applyInverted
    rw [hp, liftE_ok, pure_bind, h]
  constructor
  · unfold inverter inverterArgs
    rw [show buildSub (rs.map List.length) (fun rs => f rs) = .ok sc from hb, liftE_ok, pure_bind,
      mergeRegisters_ne rs hne hr, pure_bind, unwrapO_some, pure_bind, bind_ok happ, hsplit]
    rfl
  · unfold invertFn
    rw [hb, liftE_ok, pure_bind, mergeRegisters_ne rs hne hr, pure_bind, unwrapO_some, pure_bind, bind_ok happ, hsplit]
    simp only [pure_bind, SplitManyResult.getAllSelected]
    rw [if_pos (le_refl _), Nat.sub_self, List.drop_zero]
    rfl

end

/-- The inverse of `f`, which acts as `U` in a new builder, acts as `V'`, if `U` takes `V' z` to `z`. -/
theorem inverter_does (hang : ∀ ρ, ang (Rot.neg ρ) = -ang ρ) {f : List Reg → M LocalBuilder (List Reg)} {rs : List Reg}
    (hne : rs ≠ []) (hr : ∀ r ∈ rs, r ≠ []) {a : List Reg} {L0 : List ℕ} {U : Asg → Wave}
    (hf : Does ang (f (ranges 0 (rs.map List.length))) ⟨[], rs.flatten.length, [], 0⟩ a L0 U)
    (ht : ∀ b, f (ranges 0 (rs.map List.length)) ⟨[], rs.flatten.length, [], 0⟩ = .ok a b →
      ∃ m, maxIndex b.pipeline = some m ∧ rs.flatten.length ≤ m + 1)
    (V' : Asg → Wave) (hV : ∀ z ∈ Low rs.flatten.length, On (Low rs.flatten.length) (V' z) ∧ lift U (V' z) = ket z)
    {s : LocalBuilder} {L : List ℕ} (ho : Own s (rs.flatten ++ L)) :
    Does ang (inverter rs f) s rs (rs.flatten ++ L) (moveW rs.flatten V') ∧
      Does ang (invertFn f rs) s rs (rs.flatten ++ L) (moveW rs.flatten V') := by
  have hpos : ∀ k ∈ rs.map List.length, 0 < k := by
    intro k hk
    simp only [List.mem_map] at hk
    obtain ⟨r, h1, rfl⟩ := hk
    exact List.length_pos_iff.mpr (hr r h1)
  have hfl : rs.flatten ≠ [] := by
    cases rs with
    | nil => exact absurd rfl hne
    | cons r rs => have := hr r (by simp); simp [this]
  obtain ⟨b, f1, -, -, f4⟩ := hf
  obtain ⟨seg, g1, g2, g3⟩ := f4.seg
  have hb : b.pipeline = seg := g1
  have hbuild : buildSub (rs.map List.length) f = .ok seg := by
    rw [← hb]
    refine buildSub_ok hpos (a := a) ?_
    rw [← List.length_flatten]
    exact f1
  obtain ⟨p, p1, p2, p3, p4, -, p6⟩ := invertSub_ok hang b.n seg fun e he =>
    ⟨(g2 e he).1.1, (g2 e he).1.2.1, (g2 e he).1.2.2.choose, (g2 e he).1.2.2.choose_spec.1⟩
  have p6' := p6 fun e he => (g2 e he).2
  obtain ⟨m, m1, m2⟩ := ht b f1
  rw [hb] at m1
  rw [← maxIndex_congr p seg p4] at m1
  have hd := applySub_does (ang := ang) (s := s) (L := L) hfl m1 m2 (p3 g2) ho V' (by
    intro z hz
    obtain ⟨v1, v2⟩ := hV z hz
    refine ⟨?_, v1⟩
    rw [← v2, ← (p6' (V' z)).1]
    congr 1
    rw [(p6' (V' z)).1]
    exact (v1.agree fun y hy => by rw [lift_ket]; exact ((g3 y ((fresh_clean _ y).mpr hy)).1).symm))
  obtain ⟨s', d1, d2⟩ := hd
  have := inverter_of (β := LocalBuilder) hne hr (List.nodup_append.mp ho.left).1 hbuild p1 (s := s) (s' := s') d1
  exact ⟨⟨s', this.1, d2⟩, ⟨s', this.2, d2⟩⟩

/-- if the circuit moves qubit `q`, one of its elements touches it -/
theorem touched {sc : Pipeline} {q : ℕ} {x : Asg} (h : ¬ On {y | y q = x q} (runW ang sc (ket x))) : ∃ e ∈ sc, q ∈ e.1 := by
  by_contra hc
  push Not at hc
  refine h (On.run ang (On.ket (show x ∈ {y | y q = x q} from rfl)) sc fun e he y hy c => ?_)
  show writeQ e.1 c y q = x q
  rw [writeQ_not_mem _ _ _ _ (hc e he)]
  exact hy

theorem maxIndex_of_touched {sc : Pipeline} {q : ℕ} (h : ∃ e ∈ sc, q ∈ e.1) : ∃ m, maxIndex sc = some m ∧ q ≤ m := by
  cases hm : maxIndex sc with
  | none =>
    exfalso
    obtain ⟨e, he, hq⟩ := h
    unfold maxIndex at hm
    rw [List.max?_eq_none_iff, List.filterMap_eq_nil_iff] at hm
    have := hm e he
    rw [List.max?_eq_none_iff] at this
    rw [this] at hq
    simp at hq
  | some m =>
    obtain ⟨e, he, hq⟩ := h
    exact ⟨m, rfl, ((maxIndex_iff sc m).mp hm).2 e he q hq⟩

/-! ## functions acting alike in every builder -/

theorem emb_range (k : ℕ) (x y : Asg) : emb (List.range k) x y = fun q => if q < k then y q else x q := by
  funext q
  unfold emb
  by_cases h : q < k
  · have hm : q ∈ List.range k := List.mem_range.mpr h
    rw [if_pos hm, if_pos h]
    congr 1
    have h1 := List.getElem_idxOf (xs := List.range k) (x := q) (List.idxOf_lt_length_of_mem hm)
    rwa [List.getElem_range] at h1
  · rw [if_neg (by simpa using h), if_neg h]

theorem pull_range (k : ℕ) (x : Asg) (hx : x ∈ Low k) : pull (List.range k) x = x := by
  funext i
  unfold pull
  rw [List.length_range]
  by_cases h : i < k
  · rw [if_pos h, List.getD_eq_getElem _ _ (by simpa using h), List.getElem_range]
  · rw [if_neg h, hx i (by omega)]

theorem pull_low (R : Reg) (x : Asg) : pull R x ∈ Low R.length := by
  intro i hi
  unfold pull
  rw [if_neg (by omega)]

theorem move_range_on (k : ℕ) (V : Asg → Wave) (z : Asg) (hz : z ∈ Low k) : On (Low k) (moveW (List.range k) V z) := by
  refine (move_on (List.range k) V z).mono fun y hy i hi => ?_
  rw [hy i (by simpa using hi)]
  exact hz i hi

theorem move_move (R : Reg) (V : Asg → Wave) (x : Asg) : moveW R (moveW (List.range R.length) V) x = moveW R V x := by
  have h1 : embW R x ∘ₗ embW (List.range R.length) (pull R x) = embW R x := by
    refine wave_ext fun y => ?_
    rw [LinearMap.comp_apply, embW_ket, embW_ket, embW_ket]
    congr 1
    funext q
    unfold emb
    by_cases h : q ∈ R
    · have := List.idxOf_lt_length_of_mem h
      rw [if_pos h, if_pos h]
      have := congrFun (emb_range R.length (pull R x) y) (R.idxOf q)
      unfold emb at this
      rw [this, if_pos (by assumption)]
    · rw [if_neg h, if_neg h]
  rw [moveW_eq, moveW_eq, moveW_eq, pull_range _ _ (pull_low R x), ← LinearMap.comp_apply, h1]

/-- `f` acts as `V` on registers of the given sizes, in every builder -/
def Uniform (ang : Rot → ℝ) (f : List Reg → M LocalBuilder (List Reg)) (sizes : List ℕ) (V : Asg → Wave) : Prop :=
  ∀ (s : LocalBuilder) (rs : List Reg) (L : List ℕ), rs.map List.length = sizes → Own s (rs.flatten ++ L) →
    Does ang (f rs) s rs (rs.flatten ++ L) (moveW rs.flatten V)

theorem uniform_inverse (hang : ∀ ρ, ang (Rot.neg ρ) = -ang ρ) {f : List Reg → M LocalBuilder (List Reg)} {sizes : List ℕ}
    {V : Asg → Wave} (hf : Uniform ang f sizes V) (hne : sizes ≠ []) (hpos : ∀ k ∈ sizes, 0 < k)
    (ht : ∃ p, buildSub sizes f = .ok p ∧ ∃ e ∈ p, ∃ k ∈ e.1, sizes.sum ≤ k + 1) :
    ∃ V', (∀ R : Reg, R.Nodup → R.length = sizes.sum → ∀ x, lift (moveW R V) (moveW R V' x) = ket x ∧ lift (moveW R V') (moveW R V x) = ket x) ∧
      Uniform ang (fun rs => inverter rs f) sizes V' ∧ Uniform ang (invertFn f) sizes V' := by
  have hfl : (ranges 0 sizes).flatten = List.range sizes.sum := by rw [ranges_flatten, List.range_eq_range']
  have hf0 := hf ⟨[], sizes.sum, [], 0⟩ (ranges 0 sizes) [] (ranges_map_length sizes 0) (by
    rw [List.append_nil, hfl]; exact fresh_own _)
  rw [hfl] at hf0
  have hf0' := hf0
  obtain ⟨b, f1, -, -, f4⟩ := hf0
  obtain ⟨seg, g1, g2, g3⟩ := f4.seg
  have hb : b.pipeline = seg := g1
  have hbuild : buildSub sizes f = .ok seg := by rw [← hb]; exact buildSub_ok hpos f1
  obtain ⟨p, p1, p2, p3, p4, -, p6⟩ := invertSub_ok hang b.n seg fun e he =>
    ⟨(g2 e he).1.1, (g2 e he).1.2.1, (g2 e he).1.2.2.choose, (g2 e he).1.2.2.choose_spec.1⟩
  have p6' := p6 fun e he => (g2 e he).2
  have hV0 : ∀ z ∈ Low sizes.sum, runW ang seg (ket z) = moveW (List.range sizes.sum) V z := fun z hz =>
    (g3 z ((fresh_clean _ z).mpr hz)).1
  have hon := inverse_on (Low sizes.sum) (low_finite _) (runW ang seg) (runW ang p) (fun ψ => (p6' ψ).1) (by
    intro z hz
    rw [hV0 z hz]
    exact move_range_on _ _ _ hz)
  have i1 : ∀ z ∈ Low sizes.sum, lift (moveW (List.range sizes.sum) V) (runW ang p (ket z)) = ket z := by
    intro z hz
    rw [(hon z hz).agree (A := lift (moveW (List.range sizes.sum) V)) (B := runW ang seg) fun y hy => by
      rw [lift_ket]; exact (hV0 y hy).symm]
    exact (p6' _).2
  have i2 : ∀ z ∈ Low sizes.sum, lift (fun z => runW ang p (ket z)) (moveW (List.range sizes.sum) V z) = ket z := by
    intro z hz
    rw [(move_range_on _ _ _ hz).agree (A := lift (fun z => runW ang p (ket z))) (B := runW ang p) fun y hy => by
      rw [lift_ket], ← hV0 z hz]
    exact (p6' _).1
  refine ⟨fun z => runW ang p (ket z), ?_, ?_⟩
  · intro R hn hR x
    have e1 : moveW R V = moveW R (moveW (List.range sizes.sum) V) := by
      funext x; rw [← hR, move_move]
    have hl : pull R x ∈ Low sizes.sum := by rw [← hR]; exact pull_low R x
    rw [e1]
    constructor
    · rw [lift_move R hn _ _ _ (by rw [hR]; exact hon _ hl), moveW_eq, i1 _ hl, embW_ket, emb_pull]
    · rw [lift_move R hn _ _ _ (by rw [hR]; exact move_range_on _ _ _ hl), moveW_eq, i2 _ hl, embW_ket, emb_pull]
  · have key : ∀ (s : LocalBuilder) (rs : List Reg) (L : List ℕ), rs.map List.length = sizes → Own s (rs.flatten ++ L) →
        Does ang (inverter rs f) s rs (rs.flatten ++ L) (moveW rs.flatten fun z => runW ang p (ket z)) ∧
        Does ang (invertFn f rs) s rs (rs.flatten ++ L) (moveW rs.flatten fun z => runW ang p (ket z)) := by
      intro s rs L hrs ho
      have hlen : rs.flatten.length = sizes.sum := by rw [List.length_flatten, hrs]
      refine inverter_does hang (U := moveW (List.range sizes.sum) V) (L0 := List.range sizes.sum ++ []) (a := ranges 0 sizes)
        ?_ ?_ ?_ ?_ _ ?_ ho
      · rintro rfl; exact hne hrs.symm
      · intro r hr h0
        have := hpos r.length (by rw [← hrs]; exact List.mem_map_of_mem hr)
        rw [h0] at this
        simp at this
      · rw [hrs, hlen]; exact hf0'
      · intro b' hb'
        rw [hrs, hlen, f1] at hb'
        injection hb' with _ hb'
        subst hb'
        obtain ⟨p', t1, e, t2, k, t3, t4⟩ := ht
        rw [hbuild] at t1
        injection t1 with t1
        subst t1
        rw [hb]
        obtain ⟨m, m1, m2⟩ := maxIndex_of_touched ⟨e, t2, t3⟩
        exact ⟨m, m1, by omega⟩
      · intro z hz
        rw [hlen] at hz ⊢
        exact ⟨hon z hz, i1 z hz⟩
    exact ⟨fun s rs L h1 h2 => (key s rs L h1 h2).1, fun s rs L h1 h2 => (key s rs L h1 h2).2⟩

end Verif
