import Verif.Proofs.Wave
import Verif.Proofs.Emit

/-! # Gates on whole registers, and the circuit of `basic_toffoli` -/

namespace Verif
open Complex Classical

variable (ang : Rot → ℝ)

theorem flipAll_nil (x : Asg) : flipAll [] x = x := by funext p; simp [flipAll]

theorem flipAll_single (q : ℕ) (x : Asg) : flipAll [q] x = flipQ q x := by
  funext p
  by_cases h : p = q
  · subst h; simp [flipAll, flipQ]
  · simp [flipAll, flipQ, h]

theorem flipAll_cons (q : ℕ) (r : List ℕ) (h : q ∉ r) (x : Asg) : flipAll (q :: r) x = flipAll r (flipQ q x) := by
  funext p
  by_cases hp : p = q
  · subst hp; simp [flipAll, flipQ, h]
  · simp [flipAll, flipQ, hp]

theorem flipAll_flipAll (r : List ℕ) (x : Asg) : flipAll r (flipAll r x) = x := by
  funext p
  by_cases h : p ∈ r <;> simp [flipAll, h]

theorem flipAll_not_mem (r : List ℕ) (x : Asg) (p : ℕ) (h : p ∉ r) : flipAll r x p = x p := by simp [flipAll, h]

theorem flipQ_flipQ (q : ℕ) (x : Asg) : flipQ q (flipQ q x) = x := by
  rw [← flipAll_single, ← flipAll_single, flipAll_flipAll]

theorem flipQ_of_ne (q p : ℕ) (h : p ≠ q) (x : Asg) : flipQ q x p = x p := by simp [flipQ, h]
theorem flipQ_self (q : ℕ) (x : Asg) : flipQ q x q = !x q := by simp [flipQ]

/-! ## one gate on every qubit -/

theorem each_cons (q : ℕ) (r : List ℕ) (u : UObj) (ψ : Wave) :
    runW ang (each (q :: r) u) ψ = runW ang (each r u) (u1 ang q u ψ) := rfl

theorem each_nil (u : UObj) (ψ : Wave) : runW ang (each [] u) ψ = ψ := rfl

theorem each_single (q : ℕ) (u : UObj) (ψ : Wave) : runW ang (each [q] u) ψ = u1 ang q u ψ := rfl

/-- product over the qubits of `r` of a factor depending on the qubit's value -/
noncomputable def phs (f : Bool → ℂ) (r : List ℕ) (x : Asg) : ℂ := (r.map fun q => f (x q)).prod

theorem phs_mul (f g : Bool → ℂ) (r : List ℕ) (x : Asg) : phs f r x * phs g r x = phs (fun v => f v * g v) r x := by
  unfold phs; rw [List.prod_map_mul]

theorem phs_flip (f : Bool → ℂ) (r : List ℕ) (c : Bool) (x : Asg) :
    phs f r (if c then flipAll r x else x) = phs (fun v => f (v ^^ c)) r x := by
  unfold phs
  congr 1
  apply List.map_congr_left
  intro q hq
  cases c <;> simp [flipAll, hq]

theorem phs_one (r : List ℕ) (x : Asg) : phs (fun _ => 1) r x = 1 := by simp [phs]
theorem phs_const (c : ℂ) (r : List ℕ) (x : Asg) : phs (fun _ => c) r x = c ^ r.length := by simp [phs]

theorem phs_congr (f : Bool → ℂ) (r : List ℕ) (x y : Asg) (h : ∀ q ∈ r, x q = y q) : phs f r x = phs f r y := by
  unfold phs
  congr 1
  apply List.map_congr_left
  intro q hq
  rw [h q hq]

theorem each_phase (u : UObj) (a : ℂ) (hu : uMat ang 1 u = mat2 1 0 0 a) (r : List ℕ) (x : Asg) :
    runW ang (each r u) (ket x) = phs (fun v => if v then a else 1) r x • ket x := by
  induction r with
  | nil => simp [phs, each]
  | cons q r ih =>
    rw [each_cons]
    unfold u1
    rw [hu, phase_ket, map_smul, ih, smul_smul]
    simp [phs]

theorem each_x (r : List ℕ) (hn : r.Nodup) (x : Asg) : runW ang (each r .X) (ket x) = ket (flipAll r x) := by
  induction r generalizing x with
  | nil => simp [each, flipAll_nil]
  | cons q r ih =>
    rw [each_cons, x_ket, ih (List.nodup_cons.mp hn).2, flipAll_cons q r (List.nodup_cons.mp hn).1]

theorem each_comm1 (r : List ℕ) (q : ℕ) (h : q ∉ r) (u v : UObj) (ψ : Wave) :
    runW ang (each r u) (u1 ang q v ψ) = u1 ang q v (runW ang (each r u) ψ) := by
  induction r generalizing ψ with
  | nil => rfl
  | cons p r ih =>
    simp only [List.mem_cons, not_or] at h
    rw [each_cons, each_cons, gate1_comm p q (Ne.symm h.1), ih h.2]

theorem each_hh (r : List ℕ) (hn : r.Nodup) (ψ : Wave) :
    runW ang (each r .H) (runW ang (each r .H) ψ) = ψ := by
  induction r generalizing ψ with
  | nil => rfl
  | cons q r ih =>
    obtain ⟨h1, h2⟩ := List.nodup_cons.mp hn
    rw [each_cons, each_cons, each_comm1 ang r q h1, each_comm1 ang r q h1, each_comm1 ang r q h1, hh, ih h2]

theorem each_hzh (r : List ℕ) (hn : r.Nodup) (ψ : Wave) :
    runW ang (each r .H) (runW ang (each r .Z) (runW ang (each r .H) ψ)) = runW ang (each r .X) ψ := by
  induction r generalizing ψ with
  | nil => rfl
  | cons q r ih =>
    obtain ⟨h1, h2⟩ := List.nodup_cons.mp hn
    simp only [each_cons]
    rw [each_comm1 ang r q h1, each_comm1 ang r q h1, each_comm1 ang r q h1, each_comm1 ang r q h1,
      each_comm1 ang r q h1, each_comm1 ang r q h1, each_comm1 ang r q h1, hzh, ih h2]

/-! ## CNOTs -/

theorem cnots_cons (c q : ℕ) (r : List ℕ) (ψ : Wave) :
    runW ang (cnots c (q :: r)) ψ = runW ang (cnots c r) (gateW [c, q] (uMat ang 2 .CNOT) ψ) := rfl

theorem cnots_ket (c : ℕ) (r : List ℕ) (hn : (c :: r).Nodup) (x : Asg) :
    runW ang (cnots c r) (ket x) = ket (if x c then flipAll r x else x) := by
  induction r generalizing x with
  | nil => simp [cnots, flipAll_nil]
  | cons q r ih =>
    simp only [List.nodup_cons, List.mem_cons, not_or] at hn
    rw [cnots_cons, cnot_ket ang c q hn.1.1, ih (by simp; tauto)]
    cases h : x c
    · simp [h]
    · simp [flipQ_of_ne q c hn.1.1, h, flipAll_cons q r hn.2.1]

theorem cnot_comm1 (c t q : ℕ) (hct : c ≠ t) (hc : q ≠ c) (ht : q ≠ t) (u : UObj) (ψ : Wave) :
    u1 ang q u (gateW [c, t] (uMat ang 2 .CNOT) ψ) = gateW [c, t] (uMat ang 2 .CNOT) (u1 ang q u ψ) := by
  suffices h : u1 ang q u ∘ₗ gateW [c, t] (uMat ang 2 .CNOT) = gateW [c, t] (uMat ang 2 .CNOT) ∘ₗ u1 ang q u by
    exact congrArg (fun L => L ψ) h
  apply wave_ext
  intro x
  simp only [LinearMap.comp_apply]
  have e : ∀ v, (if (setQ q v x) c then flipQ t (setQ q v x) else setQ q v x) =
      setQ q v (if x c then flipQ t x else x) := by
    intro v
    rw [show setQ q v x c = x c from Function.update_of_ne hc.symm _ _]
    cases x c
    · simp
    · simp only [if_true, flipQ]
      rw [show setQ q v x t = x t from Function.update_of_ne ht.symm _ _]
      exact Function.update_comm ht _ _ _
  have e2 : (if x c then flipQ t x else x) q = x q := by
    cases x c
    · simp
    · simp [flipQ_of_ne t q ht]
  rw [cnot_ket ang c t hct, gate1_ket, gate1_ket, map_add, map_smul, map_smul, cnot_ket ang c t hct,
    cnot_ket ang c t hct, e, e, e2]

theorem each_cnot_comm (c t : ℕ) (hct : c ≠ t) (r : List ℕ) (hc : c ∉ r) (ht : t ∉ r) (u : UObj) (ψ : Wave) :
    runW ang (each r u) (gateW [c, t] (uMat ang 2 .CNOT) ψ) = gateW [c, t] (uMat ang 2 .CNOT) (runW ang (each r u) ψ) := by
  induction r generalizing ψ with
  | nil => rfl
  | cons q r ih =>
    simp only [List.mem_cons, not_or] at hc ht
    rw [each_cons, each_cons, cnot_comm1 ang c t q hct (Ne.symm hc.1) (Ne.symm ht.1), ih hc.2 ht.2]

theorem cnots_single (c t : ℕ) (ψ : Wave) : runW ang (cnots c [t]) ψ = gateW [c, t] (uMat ang 2 .CNOT) ψ := rfl

/-! ## states supported on a set of basis states -/

/-- `ψ` only has amplitudes on basis states in `S` -/
def On (S : Set Asg) (ψ : Wave) : Prop := ψ ∈ Finsupp.supported ℂ ℂ S

theorem On.ket {S : Set Asg} {x : Asg} (h : x ∈ S) : On S (ket x) :=
  Finsupp.single_mem_supported ℂ 1 h

theorem On.smul {S : Set Asg} {ψ : Wave} (h : On S ψ) (c : ℂ) : On S (c • ψ) := Submodule.smul_mem _ c h
theorem On.add {S : Set Asg} {ψ φ : Wave} (h : On S ψ) (h' : On S φ) : On S (ψ + φ) := Submodule.add_mem _ h h'

theorem On.mono {S T : Set Asg} {ψ : Wave} (h : On S ψ) (hst : S ⊆ T) : On T ψ :=
  Finsupp.supported_mono hst h

theorem On.agree {S : Set Asg} {ψ : Wave} (h : On S ψ) {A B : Wave →ₗ[ℂ] Wave}
    (hab : ∀ x ∈ S, A (Verif.ket x) = B (Verif.ket x)) : A ψ = B ψ :=
  agree_on S hab ψ ((Finsupp.mem_supported ℂ ψ).mp h)

/-- a linear map sending the basis states of `S` into `T` -/
theorem On.map {S T : Set Asg} {ψ : Wave} (h : On S ψ) (A : Wave →ₗ[ℂ] Wave) (hA : ∀ x ∈ S, On T (A (Verif.ket x))) :
    On T (A ψ) := by
  have e : ψ = ψ.sum fun x a => a • Verif.ket x := by
    conv_lhs => rw [← Finsupp.sum_single ψ]
    apply Finsupp.sum_congr
    intro x _
    simp [Verif.ket]
  rw [e, Finsupp.sum, map_sum]
  apply Submodule.sum_mem
  intro x hx
  rw [map_smul]
  exact (hA x ((Finsupp.mem_supported ℂ ψ).mp h hx)).smul _

theorem On.gate {S : Set Asg} {ψ : Wave} (h : On S ψ) (idx : List ℕ) (m : ℕ → ℕ → ℂ)
    (hS : ∀ x ∈ S, ∀ c, writeQ idx c x ∈ S) : On S (gateW idx m ψ) := by
  apply h.map
  intro x hx
  rw [gateW_ket]
  apply Submodule.sum_mem
  intro r _
  exact (On.ket (hS x hx r)).smul _

theorem On.entry {S : Set Asg} {ψ : Wave} (h : On S ψ) (e : List ℕ × CObj)
    (hS : ∀ x ∈ S, ∀ c, writeQ e.1 c x ∈ S) : On S (entryW ang e ψ) := by
  unfold entryW
  split
  · exact h.gate _ _ hS
  · exact h

theorem On.run {S : Set Asg} {ψ : Wave} (h : On S ψ) (p : Pipeline)
    (hS : ∀ e ∈ p, ∀ x ∈ S, ∀ c, writeQ e.1 c x ∈ S) : On S (runW ang p ψ) := by
  induction p generalizing ψ with
  | nil => exact h
  | cons e p ih =>
    rw [runW_cons]
    exact ih (h.entry ang e (hS e (by simp))) (fun e' he' => hS e' (by simp [he']))

/-! ## eighth roots of unity -/

/-- `e^{iπ/4}` -/
noncomputable def om : ℂ := exp (Real.pi / 4 * I)

theorem om_sq : om * om = I := by
  unfold om
  rw [← Complex.exp_add, show (Real.pi / 4 * I + Real.pi / 4 * I : ℂ) = Real.pi / 2 * I by ring]
  exact Complex.exp_pi_div_two_mul_I

theorem om_inv : -1 * I * om * om = 1 := by
  rw [mul_assoc, om_sq]
  rw [mul_assoc, I_mul_I]; norm_num

/-! ## `basic_toffoli` -/

/-- `t_dagger` on a basis state -/
theorem tdag_ket (r : List ℕ) (x : Asg) :
    runW ang (each r .Z ++ each r .S ++ each r .T) (ket x) = phs (fun v => if v then -1 * I * om else 1) r x • ket x := by
  rw [runW_append, runW_append, each_phase ang .Z (-1) rfl, map_smul, map_smul, each_phase ang .S I rfl, map_smul,
    each_phase ang .T om rfl, smul_smul, smul_smul, phs_mul, phs_mul]
  congr 2
  funext v
  cases v <;> simp

theorem tdag_ket' (r : List ℕ) (x : Asg) :
    runW ang (each r .T) (runW ang (each r .S) (runW ang (each r .Z) (ket x))) =
      phs (fun v => if v then -1 * I * om else 1) r x • ket x := by
  rw [← runW_append, ← runW_append, ← List.append_assoc, tdag_ket]

/-- the middle part of the circuit -/
def midSeg (a b : ℕ) (r : Reg) : Pipeline :=
  cnots b r ++ ((each r .Z ++ each r .S ++ each r .T) ++ (cnots a r ++ (each r .T ++ (cnots b r ++
    ((each r .Z ++ each r .S ++ each r .T) ++ (cnots a r ++ (each [b] .T ++ (each r .T ++ cnots a [b]))))))))

theorem flip_flip_if (r : List ℕ) (x : Asg) (c d : Bool) :
    (if d then flipAll r (if c then flipAll r x else x) else (if c then flipAll r x else x)) =
      if c ^^ d then flipAll r x else x := by
  cases c <;> cases d <;> simp [flipAll_flipAll]

theorem mid_ket (a b : ℕ) (r : Reg) (hn : (a :: b :: r).Nodup) (x : Asg) :
    runW ang (midSeg a b r) (ket x) =
      ((if x b then om else 1) * (if x a && x b then phs (fun v => if v then I else -I) r x else 1)) •
        ket (if x a then flipQ b x else x) := by
  have hab : a ≠ b := by simp at hn; tauto
  have har : (a :: r).Nodup := by simp at hn ⊢; tauto
  have hbr : (b :: r).Nodup := by simp at hn ⊢; tauto
  have ha : a ∉ r := (List.nodup_cons.mp har).1
  have hb : b ∉ r := (List.nodup_cons.mp hbr).1
  have habl : (a :: [b]).Nodup := by simp [hab]
  have ea : ∀ c : Bool, (if c then flipAll r x else x) a = x a := by
    intro c; cases c <;> simp [flipAll_not_mem r x a ha]
  have eb : ∀ c : Bool, (if c then flipAll r x else x) b = x b := by
    intro c; cases c <;> simp [flipAll_not_mem r x b hb]
  unfold midSeg
  simp only [runW_append]
  rw [cnots_ket ang b r hbr]
  rw [tdag_ket', map_smul, cnots_ket ang a r har, ea, flip_flip_if]
  simp only [map_smul]
  rw [each_phase ang .T om rfl]
  simp only [map_smul]
  rw [cnots_ket ang b r hbr, eb, flip_flip_if, tdag_ket']
  simp only [map_smul]
  rw [cnots_ket ang a r har, ea, flip_flip_if]
  rw [show (((x b ^^ x a) ^^ x b) ^^ x a) = false by cases x a <;> cases x b <;> rfl]
  simp only [Bool.false_eq_true, if_false]
  rw [each_phase ang .T om rfl]
  simp only [map_smul]
  rw [each_phase ang .T om rfl]
  simp only [map_smul]
  rw [cnots_ket ang a [b] habl, flipAll_single, phs_flip, phs_flip, phs_flip]
  simp only [smul_smul]
  congr 1
  have hb1 : phs (fun v => if v then om else 1) [b] x = if x b then om else 1 := by simp [phs]
  rw [hb1]
  rw [mul_left_comm _ (if x b then om else 1), mul_left_comm _ (if x b then om else 1),
    mul_left_comm _ (if x b then om else 1), phs_mul, phs_mul, phs_mul]
  congr 1
  have key : ∀ A B v : Bool, (if v ^^ B then -1 * I * om else 1) * ((if v ^^ (B ^^ A) then om else 1) *
      ((if v ^^ ((B ^^ A) ^^ B) then -1 * I * om else 1) * (if v then om else 1))) =
      if A && B then (if v then I else -I) else 1 := by
    have hoi := om_inv
    have hos := om_sq
    have hII := I_mul_I
    intro A B v
    cases A <;> cases B <;> cases v <;> simp only [Bool.xor_false, Bool.false_xor, Bool.xor_true, Bool.true_xor,
      Bool.not_false, Bool.not_true, Bool.and_true, Bool.and_false, Bool.false_eq_true, if_true, if_false, mul_one,
      one_mul]
    · linear_combination (-1 * I * om * om + 1) * hoi
    all_goals first
      | linear_combination hoi
      | linear_combination hos
      | linear_combination (I * I) * hos + I * hII
  simp only [key]
  cases x a && x b
  · simp [phs_one]
  · simp

theorem mid_on (a b : ℕ) (r : Reg) (hn : (a :: b :: r).Nodup) (x : Asg) (h : x a && x b) :
    runW ang (midSeg a b r) (ket x) =
      (om * (-I) ^ r.length) • runW ang (cnots a [b]) (runW ang (each r .Z) (ket x)) := by
  have hab : a ≠ b := by simp at hn; tauto
  rw [mid_ket ang a b r hn, each_phase ang .Z (-1) rfl, map_smul, cnots_ket ang a [b] (by simp [hab]), flipAll_single,
    smul_smul, if_pos h]
  simp only [Bool.and_eq_true] at h
  rw [if_pos h.2, mul_assoc, ← phs_const (-I) r x, phs_mul]
  congr 3
  funext v; cases v <;> simp

theorem mid_off (a b : ℕ) (r : Reg) (hn : (a :: b :: r).Nodup) (x : Asg) (h : (x a && x b) = false) :
    runW ang (midSeg a b r) (ket x) = (if x b then om else 1) • runW ang (cnots a [b]) (ket x) := by
  have hab : a ≠ b := by simp at hn; tauto
  rw [mid_ket ang a b r hn, cnots_ket ang a [b] (by simp [hab]), flipAll_single, h]
  simp

/-- the closing part of the circuit -/
def postSeg (a b : ℕ) : Pipeline :=
  each [a] .T ++ ((each [b] .Z ++ each [b] .S ++ each [b] .T) ++ cnots a [b])

theorem basicToffoliSeg_eq (a b : ℕ) (r : Reg) :
    basicToffoliSeg a b r = each r .H ++ (midSeg a b r ++ (each r .H ++ postSeg a b)) := by
  simp [basicToffoliSeg, midSeg, postSeg]

theorem post_ket (a b : ℕ) (hab : a ≠ b) (x : Asg) :
    runW ang (postSeg a b) (runW ang (cnots a [b]) (ket x)) =
      ((if x a then om else 1) * (if x a ^^ x b then -1 * I * om else 1)) • ket x := by
  unfold postSeg
  have hn : (a :: [b]).Nodup := by simp [hab]
  simp only [runW_append]
  rw [cnots_ket ang a [b] hn, each_phase ang .T om rfl]
  simp only [map_smul]
  rw [tdag_ket']
  simp only [map_smul]
  rw [cnots_ket ang a [b] hn, smul_smul]
  cases h : x a <;> simp [phs, flipAll, h, hab, flipAll_flipAll]

theorem basicToffoli_ket (a b : ℕ) (r : Reg) (hr : r ≠ []) (hn : (a :: b :: r).Nodup) (x : Asg) :
    runW ang (basicToffoliSeg a b r) (ket x) =
      if x a && x b then (-I) ^ (r.length - 1) • ket (flipAll r x) else ket x := by
  have hab : a ≠ b := by simp at hn; tauto
  have ha : a ∉ r := by simp at hn; tauto
  have hb : b ∉ r := by simp at hn; tauto
  have hnr : r.Nodup := by simp at hn; tauto
  rw [basicToffoliSeg_eq, runW_append, runW_append, runW_append]
  have hon : On {y | y a = x a ∧ y b = x b} (runW ang (each r .H) (ket x)) := by
    apply On.run
    · exact On.ket ⟨rfl, rfl⟩
    · intro e he y hy c
      simp only [each, List.mem_map] at he
      obtain ⟨q, hq, rfl⟩ := he
      refine ⟨?_, ?_⟩
      · rw [writeQ_not_mem]
        · exact hy.1
        · simp; rintro rfl; exact ha hq
      · rw [writeQ_not_mem]
        · exact hy.2
        · simp; rintro rfl; exact hb hq
  cases h : x a && x b
  · have e1 : runW ang (midSeg a b r) (runW ang (each r .H) (ket x)) =
        ((if x b then om else 1 : ℂ) • runW ang (cnots a [b])) (runW ang (each r .H) (ket x)) := by
      apply hon.agree
      intro y hy
      rw [mid_off ang a b r hn y (by rw [hy.1, hy.2]; exact h), hy.2]; rfl
    rw [e1]
    simp only [LinearMap.smul_apply, map_smul]
    rw [cnots_single, each_cnot_comm ang a b hab r ha hb, each_hh ang r hnr, ← cnots_single, post_ket ang a b hab,
      smul_smul]
    have hoi := om_inv
    cases h1 : x a <;> cases h2 : x b <;> simp_all
    · linear_combination (norm := module) hoi • ket x
    · linear_combination (norm := module) hoi • ket x
  · have e1 : runW ang (midSeg a b r) (runW ang (each r .H) (ket x)) =
        ((om * (-I) ^ r.length : ℂ) • (runW ang (cnots a [b]) ∘ₗ runW ang (each r .Z))) (runW ang (each r .H) (ket x)) := by
      apply hon.agree
      intro y hy
      rw [mid_on ang a b r hn y (by rw [hy.1, hy.2]; exact h)]; rfl
    rw [e1]
    simp only [LinearMap.smul_apply, map_smul, LinearMap.comp_apply]
    rw [cnots_single, each_cnot_comm ang a b hab r ha hb, each_hzh ang r hnr, each_x ang r hnr, ← cnots_single,
      post_ket ang a b hab, smul_smul, flipAll_not_mem r x a ha, flipAll_not_mem r x b hb]
    simp only [Bool.and_eq_true] at h
    simp only [h.1, h.2, if_true, Bool.xor_self, Bool.false_eq_true, if_false, mul_one]
    congr 1
    obtain ⟨m, hm⟩ : ∃ m, r.length = m + 1 := ⟨r.length - 1, by have := List.length_pos_iff.mpr hr; omega⟩
    rw [hm, pow_succ, Nat.add_sub_cancel]
    have hos := om_sq
    have hII := I_mul_I
    linear_combination (-(-I) ^ m * I) * hos - (-I) ^ m * hII

end Verif
