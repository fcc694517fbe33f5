import Verif.Proofs.AddMod

/-! # `add` inside conditions gives a basis state only without carries -/

namespace Verif
open Classical Complex RegOps CircuitBuilder TempBuilder Rooted

theorem lift_inj_ket {f g : Asg → Asg} (h : ∀ x, g (f x) = x) {ψ : Wave} {y : Asg} (e : lift (fun x => ket (f x)) ψ = ket y) : ψ = ket (g y) := by
  have h1 : lift (fun x => ket (g x)) (lift (fun x => ket (f x)) ψ) = ψ := by
    have : (lift fun x => ket (g x)) ∘ₗ (lift fun x => ket (f x)) = LinearMap.id := wave_ext fun x => by
      simp [lift_ket, h]
    rw [← LinearMap.comp_apply, this]
    rfl
  rw [← h1, e, lift_ket]

theorem on_ket {S : Set Asg} {y : Asg} (h : On S (ket y)) : y ∈ S := on_iff.mp h y (by simp [ket])

/-- half a turn is not enough to return to a basis state -/
theorem w_both (d : ℕ) (x : Asg) (v : Bool) : gateW [d] wMat (ket x) (setQ d v x) ≠ 0 := by
  have hs : sin (1 / 2 : ℂ) ≠ 0 := by
    have h := Real.sin_pos_of_pos_of_lt_pi (x := 1 / 2) (by norm_num) (by linarith [Real.two_le_pi])
    have e : (sin (1 / 2 : ℂ)) = ((Real.sin (1 / 2) : ℝ) : ℂ) := by push_cast; rfl
    rw [e]
    exact_mod_cast h.ne'
  have hc : cos (1 / 2 : ℂ) ≠ 0 := by
    have h := Real.cos_pos_of_mem_Ioo (x := 1 / 2) ⟨by linarith [Real.two_le_pi], by linarith [Real.two_le_pi]⟩
    have e : (cos (1 / 2 : ℂ)) = ((Real.cos (1 / 2) : ℝ) : ℂ) := by push_cast; rfl
    rw [e]
    exact_mod_cast h.ne'
  have hne : setQ d false x ≠ setQ d true x := fun h => by
    have := congrFun h d
    simp [setQ] at this
  rw [gate1_ket]
  unfold wMat ket
  rw [one_div] at hs hc ⊢
  cases x d <;> cases v <;> simp [mat2, hne, hne.symm, hs, hc]

theorem addW_carry (c0 : ℕ) (ct a b : Reg) (hn : ((c0 :: ct) ++ a ++ b).Nodup) (ha : a.length = ct.length + 1) (hb : b.length = ct.length + 2)
    (x : Asg) (hx : ∀ q ∈ ct, x q = false) (y : Asg) (h : addW (c0 :: ct) a b x = ket y) :
    ∀ i, 0 < i → i < a.length → valQ (a.take i) x + valQ (b.take i) x + (x c0).toNat < 2 ^ i := by
  induction ct generalizing c0 a b x y with
  | nil => intro i h0 hi; simp at ha; omega
  | cons c1 ct ih =>
    obtain ⟨a0, as, rfl⟩ := List.exists_cons_of_length_pos (l := a) (by omega)
    obtain ⟨b0, bs, rfl⟩ := List.exists_cons_of_length_pos (l := b) (by omega)
    have hnn := add_nodup hn
    have hd : c0 ∉ bs ∧ a0 ∉ bs ∧ b0 ∉ bs ∧ c0 ∉ ct ∧ a0 ∉ ct ∧ b0 ∉ ct ∧ c1 ∉ ct ∧ c1 ∉ bs ∧ c0 ≠ c1 ∧ a0 ≠ c1 ∧ b0 ≠ c1 ∧ c1 ∉ as ∧
        [c0, a0, b0].Nodup := by
      simp only [List.nodup_append, List.nodup_cons, List.mem_cons, List.mem_append] at hn ⊢
      grind
    obtain ⟨d1, d2, d3, d4, d5, d6, d7, d8, d9, d10, d11, d12, d13⟩ := hd
    have hx1 : x c1 = false := hx c1 (by simp)
    unfold addW at h
    have h1 := lift_inj_ket (sumMap_sumMap c0 a0 b0 d13) h
    generalize sumMap c0 a0 b0 y = y1 at h1
    have h2 : addW (c1 :: ct) as bs (carryMap c0 a0 b0 c1 x) = carryW c0 a0 b0 c1 y1 := by
      have e : (lift (carryW c0 a0 b0 c1)) ∘ₗ (lift (carryW c0 a0 b0 c1)) = LinearMap.id := wave_ext fun z => by
        rw [LinearMap.comp_apply, lift_ket, carryW_carryW c0 a0 b0 c1 hnn.1]; rfl
      have := congrArg (lift (carryW c0 a0 b0 c1)) h1
      rw [lift_ket, ← LinearMap.comp_apply, e] at this
      exact this
    have hon := addW_keeps (c1 :: ct) as bs (carryMap c0 a0 b0 c1 x)
    rw [h2] at hon
    have hon' : ∀ z, carryW c0 a0 b0 c1 y1 z ≠ 0 → z c0 = x c0 ∧ z a0 = x a0 ∧ z b0 = x b0 ∧ z c1 = maj (x c0) (x a0) (x b0) := by
      intro z hz
      have := on_iff.mp hon z (Finsupp.mem_support_iff.mpr hz)
      simp only [List.tail_cons] at this
      refine ⟨?_, ?_, ?_, ?_⟩
      · rw [this c0 d4 d1, carryMap_keeps _ _ _ _ _ _ d9]
      · rw [this a0 d5 d2, carryMap_keeps _ _ _ _ _ _ d10]
      · rw [this b0 d6 d3, carryMap_keeps _ _ _ _ _ _ d11]
      · rw [this c1 d7 d8]
        simp [carryMap, hx1]
    by_cases hy : maj (y1 c0) (y1 a0) (y1 b0) = true
    · exfalso
      have e : carryW c0 a0 b0 c1 y1 = gateW [c1] wMat (ket y1) := if_pos hy
      rw [e] at hon'
      have g1 := (hon' _ (w_both c1 y1 true)).2.2.2
      have g0 := (hon' _ (w_both c1 y1 false)).2.2.2
      rw [← g1] at g0
      simp [setQ] at g0
    · have e : carryW c0 a0 b0 c1 y1 = ket y1 := if_neg hy
      rw [e] at hon' h2
      obtain ⟨k1, k2, k3, k4⟩ := hon' y1 (by simp [ket])
      have hmaj : maj (x c0) (x a0) (x b0) = false := by
        rw [← k1, ← k2, ← k3]; simpa using hy
      have hcx : carryMap c0 a0 b0 c1 x = x := by
        unfold carryMap
        rw [hmaj, Bool.xor_false, Function.update_eq_self]
      rw [hcx] at h2
      have := ih c1 as bs hnn.2 (by simpa using ha) (by simpa using hb) x (fun q hq => hx q (by simp [hq])) y1 h2
      intro i h0 hi
      obtain ⟨i, rfl⟩ : ∃ j, i = j + 1 := ⟨i - 1, by omega⟩
      simp only [List.take_succ_cons, valQ, pow_succ]
      have hm : (x a0).toNat + (x b0).toNat + (x c0).toNat < 2 := by
        revert hmaj
        cases x c0 <;> cases x a0 <;> cases x b0 <;> simp [maj]
      by_cases hi0 : i = 0
      · subst hi0; simp [valQ]; omega
      · have := this i (by omega) (by simpa using hi)
        rw [hx1] at this
        simp only [Bool.toNat_false] at this
        omega

theorem modPost_modPost (ra rb : Reg) (t n : ℕ) (rc : Reg) (hn : (rc ++ ra ++ rb).Nodup) (hb : rb.length = n + 1) (ht : t ∉ rb) (x : Asg) :
    modPost ra rb t n rc (modPost ra rb t n rc x) = x := by
  unfold modPost
  simp only [sub_add rc ra rb hn]
  have hq : rb.getD n 0 ≠ t := by
    rintro rfl
    exact ht (by rw [List.getD_eq_getElem _ _ (by omega)]; exact List.getElem_mem _)
  by_cases h : subMap rc ra rb x (rb.getD n 0) = false
  · rw [if_pos h, if_pos (by rw [flipQ_of_ne t _ hq, h]), flipQ_flipQ, add_sub rc ra rb hn]
  · rw [if_neg h, if_neg h, add_sub rc ra rb hn]

/-- `add_mod` gives a basis state only if the conditioned addition has no carry -/
theorem mod_needs (n : ℕ) (ra rb rm : Reg) (t c0 : ℕ) (ct : Reg) (ha : ra.length = n) (hm : rm.length = n) (hb : rb.length = n + 1)
    (hc : n = ct.length + 1) (hn : [ra, rb, rm, [t], c0 :: ct].flatten.Nodup) (x : Asg) (hx : ∀ q ∈ t :: c0 :: ct, x q = false)
    (h1 : valQ ra x < valQ rm x) (h2 : valQ rb x < valQ rm x) (y : Asg)
    (h : lift (fun y => ket (modPost ra rb t n (c0 :: ct) y))
        (let y := modPre ra rb rm t n (c0 :: ct) x
         if y t = true then addW (c0 :: ct) rm rb y else ket y) = ket y) :
    valQ rm x ≤ valQ ra x + valQ rb x ∨ ∀ i < n, valQ rm x % 2 ^ i ≤ (valQ ra x + valQ rb x) % 2 ^ i := by
  by_cases hge : valQ rm x ≤ valQ ra x + valQ rb x
  · exact .inl hge
  refine .inr fun i hi => ?_
  have hmlt := valQ_lt rm x
  rw [hm] at hmlt
  have hP : (2 : ℕ) ^ rb.length = 2 * 2 ^ n := by rw [hb, pow_succ, mul_comm]
  have hPz : (2 : ℤ) ^ rb.length = 2 * 2 ^ n := by exact_mod_cast hP
  have hpz : ((2 : ℤ) ^ n) = ((2 ^ n : ℕ) : ℤ) := by push_cast; rfl
  simp only [List.flatten_cons, List.flatten_nil, List.append_nil] at hn
  have na : ((c0 :: ct) ++ ra ++ rb).Nodup := by
    simp only [List.nodup_append, List.nodup_cons, List.mem_cons, List.mem_append] at hn ⊢
    grind
  have nm : ((c0 :: ct) ++ rm ++ rb).Nodup := by
    simp only [List.nodup_append, List.nodup_cons, List.mem_cons, List.mem_append] at hn ⊢
    grind
  have hmb : ∀ q ∈ rm, q ∉ rb := fun q h1 h2 => (List.nodup_append.mp nm).2.2 q (by simp [h1]) q h2 rfl
  have hcb : ∀ q ∈ c0 :: ct, q ∉ rb := fun q h1 h2 => (List.nodup_append.mp na).2.2 q (List.mem_append_left _ h1) q h2 rfl
  have htn : t ∉ rb ∧ t ∉ rm ∧ t ∉ c0 :: ct := by
    simp only [List.nodup_append, List.nodup_cons, List.mem_cons, List.mem_append] at hn ⊢
    grind
  obtain ⟨tb, tm, tc⟩ := htn
  have hx0 : x c0 = false := hx c0 (by simp)
  have e := lift_inj_ket (modPost_modPost ra rb t n (c0 :: ct) na hb tb) h
  -- the values after the first two lines
  obtain ⟨v1, k1⟩ := add_value c0 ct ra rb na (by omega) (by omega) x (fun q hq => hx q (by simp [hq]))
  rw [hP, hx0] at v1
  simp only [Bool.toNat_false, Nat.add_zero] at v1
  rw [Nat.mod_eq_of_lt (by omega)] at v1
  obtain ⟨v2, k2⟩ := sub_value c0 ct rm rb nm (by omega) (by omega) (addMap (c0 :: ct) ra rb x) (fun q hq => by
    rw [k1 q (hcb q (by simp [hq]))]; exact hx q (by simp [hq]))
  rw [hPz, v1, valQ_congr rm (addMap (c0 :: ct) ra rb x) x (fun q hq => k1 q (hmb q hq)), k1 c0 (hcb c0 (by simp)), hx0] at v2
  simp only [Bool.toNat_false, Nat.cast_zero, Int.sub_zero] at v2
  have k2' : ∀ q, q ∉ rb → subMap (c0 :: ct) rm rb (addMap (c0 :: ct) ra rb x) q = x q := fun q hq => by rw [k2 q hq, k1 q hq]
  unfold modPre at e
  generalize subMap (c0 :: ct) rm rb (addMap (c0 :: ct) ra rb x) = x2 at v2 k2' e
  have v2' : valQ rb x2 = 2 * 2 ^ n + (valQ ra x + valQ rb x) - valQ rm x := by
    have : ((valQ rb x + valQ ra x : ℕ) - valQ rm x : ℤ) % (2 * 2 ^ n) = 2 * 2 ^ n + (valQ ra x + valQ rb x) - valQ rm x := by
      rw [← Int.add_emod_right, Int.emod_eq_of_lt (by omega) (by omega)]
      omega
    rw [this] at v2
    omega
  have hbit : x2 (rb.getD n 0) = true := by rw [top_bit rb n hb x2, v2']; simp; omega
  simp only [hbit, if_true, flipQ_self, k2' t tb, hx t (by simp), Bool.not_false] at e
  have hy : ∀ q, q ∉ rb → q ≠ t → flipQ t x2 q = x q := fun q hq hqt => by rw [flipQ_of_ne t q hqt, k2' q hq]
  by_cases h0 : i = 0
  · subst h0; simp [Nat.mod_one]
  have hh := addW_carry c0 ct rm rb nm (by omega) (by omega) (flipQ t x2) (fun q hq => by
      rw [hy q (hcb q (by simp [hq])) (by rintro rfl; exact tc (by simp [hq]))]; exact hx q (by simp [hq])) _ e i (by omega) (by omega)
  rw [valQ_take, valQ_take, hy c0 (hcb c0 (by simp)) (by rintro rfl; exact tc (by simp)), hx0,
    valQ_congr rm (flipQ t x2) x (fun q hq => hy q (hmb q hq) (by rintro rfl; exact tm hq)),
    valQ_congr rb (flipQ t x2) x2 (fun q hq => flipQ_of_ne t q (by rintro rfl; exact tb hq) x2), v2'] at hh
  simp only [Bool.toNat_false, Nat.add_zero] at hh
  obtain ⟨k, hk⟩ : 2 ^ i ∣ 2 * 2 ^ n := by
    rw [← pow_succ']
    exact pow_dvd_pow 2 (by omega)
  have e2 : (2 * 2 ^ n + (valQ ra x + valQ rb x) - valQ rm x + valQ rm x) % 2 ^ i = (valQ ra x + valQ rb x) % 2 ^ i := by
    rw [show 2 * 2 ^ n + (valQ ra x + valQ rb x) - valQ rm x + valQ rm x = (valQ ra x + valQ rb x) + 2 ^ i * k by omega, Nat.add_mul_mod_self_left]
  rw [Nat.add_mod, Nat.mod_eq_of_lt (by omega)] at e2
  omega

end Verif
