import Mathlib.Tactic.Linarith
import Mathlib.Tactic.FieldSimp
import Mathlib.Tactic.Ring
import Mathlib.Data.Rat.Lemmas
import Verif.Spec.Ratio64

/-!
# Ratios on words
-/

namespace Verif

theorem i64_word (checked : Bool) {x : ℤ} (h : Word x) : i64 checked x = some x := if_pos h

theorem i64_checked {x : ℤ} (h : ¬Word x) : i64 true x = none := (if_neg h).trans (if_pos rfl)

theorem i64_unchecked {x : ℤ} (h : ¬Word x) : i64 false x = some (x.bmod (2 ^ 64)) := (if_neg h).trans (if_neg (by decide))

theorem i64_top : i64 true (2 ^ 63) = none ∧ i64 false (2 ^ 63) = some (-2 ^ 63) := by decide

/-- common divisor and quotients of two words -/
theorem gcd_parts {n d : ℤ} (hn : Word n) (hd : Word d) (n0 : n ≠ 0) (d0 : d ≠ 0) (hne : n ≠ d) :
    ∃ g a b : ℤ, 0 < g ∧ g < 2 ^ 63 ∧ (Int.gcd n d : ℤ) = g ∧ n = g * a ∧ d = g * b ∧ Nat.Coprime a.natAbs b.natAbs ∧ a ≠ 0 ∧ b ≠ 0 := by
  have hg : 0 < Int.gcd n d := Int.gcd_pos_of_ne_zero_left d n0
  obtain ⟨a, ha⟩ := Int.gcd_dvd_left n d
  obtain ⟨b, hb⟩ := Int.gcd_dvd_right n d
  have a0 : a ≠ 0 := by rintro rfl; exact n0 (by rw [ha, mul_zero])
  have b0 : b ≠ 0 := by rintro rfl; exact d0 (by rw [hb, mul_zero])
  refine ⟨(Int.gcd n d : ℤ), a, b, by exact_mod_cast hg, ?_, rfl, ha, hb, ?_, a0, b0⟩
  · obtain ⟨h1, h2⟩ := hn
    obtain ⟨h3, h4⟩ := hd
    by_contra hc
    set g : ℤ := ((Int.gcd n d : ℕ) : ℤ)
    have key : ∀ x y : ℤ, y ≠ 0 → x = g * y → -2 ^ 63 ≤ x → x < 2 ^ 63 → x = -2 ^ 63 := by
      intro x y hy hx h5 h6
      rcases lt_or_gt_of_ne hy with h | h
      · nlinarith
      · nlinarith
    exact hne ((key n a a0 ha h1 h2).trans (key d b b0 hb h3 h4).symm)
  · have h5 : n.natAbs = Int.gcd n d * a.natAbs := by conv_lhs => rw [ha, Int.natAbs_mul, Int.natAbs_natCast]
    have h6 : d.natAbs = Int.gcd n d * b.natAbs := by conv_lhs => rw [hb, Int.natAbs_mul, Int.natAbs_natCast]
    have h7 : Int.gcd n d = Int.gcd n d * Nat.gcd a.natAbs b.natAbs := by
      conv_lhs => rw [Int.gcd_eq_natAbs_gcd_natAbs, h5, h6, Nat.gcd_mul_left]
    exact Nat.eq_of_mul_eq_mul_left hg (by rw [← h7, mul_one])

theorem quot64_mul {g a : ℤ} (hg : 0 < g) : quot64 (g * a) g = some a := by
  unfold quot64
  rw [if_neg hg.ne', if_neg (by omega), Int.mul_tdiv_cancel_left _ hg.ne']

/-- `Ratio::new` after the division -/
theorem new_parts (checked : Bool) {n d g a b : ℤ} (hg : 0 < g) (hg2 : g < 2 ^ 63) (e : (Int.gcd n d : ℤ) = g) (ha : n = g * a) (hb : d = g * b) (n0 : n ≠ 0)
    (d0 : d ≠ 0) (hne : n ≠ d) :
    Ratio64.new checked n d = if b < 0 then (do
      let n ← i64 checked (0 - a)
      let d ← i64 checked (0 - b)
      some ⟨n, d⟩) else some ⟨a, b⟩ := by
  unfold Ratio64.new gcdWord
  rw [if_neg d0, if_neg n0, if_neg hne, e, i64_word checked ⟨by omega, hg2⟩]
  simp only [Option.bind_eq_bind, Option.bind_some]
  rw [ha, hb, quot64_mul hg, quot64_mul hg]
  rfl

theorem isRatio_of_coprime {a b : ℤ} (hb : 0 < b) (h : Nat.Coprime a.natAbs b.natAbs) (wa : Word a) (wb : Word b) : IsRatio ⟨a, b⟩ ((a : ℚ) / b) :=
  ⟨(Rat.num_div_eq_of_coprime hb h).symm, (Rat.den_div_eq_of_coprime hb h).symm, wa, wb⟩

theorem IsRatio.val {r : Ratio64} {x : ℚ} (h : IsRatio r x) : r.val = x := by
  unfold Ratio64.val
  rw [h.1, h.2.1]
  exact_mod_cast Rat.num_div_den x

/-- a factor of a word -/
theorem word_factor {g a : ℤ} (hg : 0 < g) (h : Word (g * a)) : Word a := by
  obtain ⟨h1, h2⟩ := h
  constructor <;> nlinarith

theorem new_ok (checked : Bool) {n d : ℤ} (hn : Word n) (hd : Word d) (d0 : d ≠ 0) (ho : ¬NewOverflows n d) :
    ∃ r, Ratio64.new checked n d = some r ∧ IsRatio r ((n : ℚ) / d) := by
  by_cases n0 : n = 0
  · subst n0
    refine ⟨⟨0, 1⟩, by unfold Ratio64.new; rw [if_neg d0, if_pos rfl], ?_⟩
    rw [Int.cast_zero, zero_div]
    exact ⟨rfl, rfl, by norm_num [Word], by norm_num [Word]⟩
  by_cases hne : n = d
  · subst hne
    refine ⟨⟨1, 1⟩, by unfold Ratio64.new; rw [if_neg d0, if_neg n0, if_pos rfl], ?_⟩
    rw [div_self (by exact_mod_cast n0)]
    exact ⟨rfl, rfl, by norm_num [Word], by norm_num [Word]⟩
  obtain ⟨g, a, b, hg, hg2, e, ha, hb, hc, a0, b0⟩ := gcd_parts hn hd n0 d0 hne
  rw [new_parts checked hg hg2 e ha hb n0 d0 hne]
  have wa : Word a := word_factor hg (ha ▸ hn)
  have wb : Word b := word_factor hg (hb ▸ hd)
  have gq : (g : ℚ) ≠ 0 := by exact_mod_cast hg.ne'
  have bq : (b : ℚ) ≠ 0 := by exact_mod_cast b0
  by_cases hb0 : b < 0
  · rw [if_pos hb0]
    have g1 : ∀ {x y : ℤ}, x = g * y → Word x → y = -2 ^ 63 → g = 1 := by
      intro x y hx hw hy
      obtain ⟨h1, -⟩ := hw
      rw [hx, hy] at h1
      nlinarith
    have odd : ∀ {y : ℤ}, Nat.Coprime (-2 ^ 63 : ℤ).natAbs y.natAbs → y % 2 = 1 := by
      intro y hy
      have : Nat.Coprime 2 y.natAbs := Nat.Coprime.coprime_dvd_left (by norm_num) hy
      have := (Nat.coprime_two_left).mp this
      obtain ⟨k, hk⟩ := this
      omega
    have na : a ≠ -2 ^ 63 := by
      intro h
      have hg1 := g1 ha hn h
      subst hg1
      rw [one_mul] at ha hb
      rw [h] at hc
      exact ho (Or.inr ⟨ha.trans h, hb ▸ hb0, hb ▸ odd hc⟩)
    have nb : b ≠ -2 ^ 63 := by
      intro h
      have hg1 := g1 hb hd h
      subst hg1
      rw [one_mul] at ha hb
      rw [h] at hc
      exact ho (Or.inl ⟨hb.trans h, ha ▸ odd hc.symm⟩)
    obtain ⟨wa1, wa2⟩ := wa
    obtain ⟨wb1, wb2⟩ := wb
    have wa' : Word (0 - a) := ⟨by omega, by omega⟩
    have wb' : Word (0 - b) := ⟨by omega, by omega⟩
    rw [i64_word checked wa', i64_word checked wb']
    refine ⟨_, rfl, ?_⟩
    have : (n : ℚ) / d = ((0 - a : ℤ) : ℚ) / ((0 - b : ℤ) : ℚ) := by
      rw [ha, hb]
      push_cast
      rw [zero_sub, zero_sub, neg_div_neg_eq, mul_div_mul_left _ _ gq]
    rw [this]
    exact isRatio_of_coprime (by omega) (by rw [zero_sub, zero_sub, Int.natAbs_neg, Int.natAbs_neg]; exact hc) wa' wb'
  · rw [if_neg hb0]
    refine ⟨_, rfl, ?_⟩
    have : (n : ℚ) / d = (a : ℚ) / b := by
      rw [ha, hb]
      push_cast
      rw [mul_div_mul_left _ _ gq]
    rw [this]
    exact isRatio_of_coprime (by omega) hc wa wb

/-- an odd word and a power of two -/
theorem coprime_top {y : ℤ} (h : y % 2 = 1) : Nat.Coprime (-2 ^ 63 : ℤ).natAbs y.natAbs := by
  have : (-2 ^ 63 : ℤ).natAbs = 2 ^ 63 := by decide
  rw [this]
  exact Nat.Coprime.pow_left 63 (Nat.coprime_two_left.mpr (by rw [Nat.odd_iff]; omega))

theorem new_overflows {n d : ℤ} (hn : Word n) (hd : Word d) (h : NewOverflows n d) :
    Ratio64.new true n d = none ∧ ∃ r, Ratio64.new false n d = some r ∧ r.val = -((n : ℚ) / d) := by
  have hc : Int.gcd n d = 1 := by
    rcases h with ⟨rfl, h⟩ | ⟨rfl, -, h⟩
    · rw [Int.gcd_comm]; exact coprime_top h
    · exact coprime_top h
  have n0 : n ≠ 0 := by rcases h with ⟨rfl, h⟩ | ⟨rfl, -, h⟩ <;> omega
  have d0 : d ≠ 0 := by rcases h with ⟨rfl, h⟩ | ⟨rfl, -, h⟩ <;> omega
  have hne : n ≠ d := by rcases h with ⟨rfl, h⟩ | ⟨rfl, -, h⟩ <;> omega
  have dn : d < 0 := by rcases h with ⟨rfl, h⟩ | ⟨rfl, h, -⟩ <;> omega
  have key := fun c => new_parts c (g := 1) (a := n) (b := d) one_pos (by norm_num) (by rw [hc]; rfl) (one_mul n).symm (one_mul d).symm n0 d0 hne
  obtain ⟨t1, t2⟩ := i64_top
  obtain ⟨hn1, hn2⟩ := hn
  obtain ⟨hd1, hd2⟩ := hd
  rw [key true, key false, if_pos dn, if_pos dn]
  rcases h with ⟨rfl, h⟩ | ⟨rfl, h1, h2⟩
  · have wn : Word (0 - n) := ⟨by omega, by omega⟩
    have e : (0 - -2 ^ 63 : ℤ) = 2 ^ 63 := by norm_num
    rw [e, t1, t2, i64_word true wn, i64_word false wn]
    refine ⟨rfl, _, rfl, ?_⟩
    simp only [Ratio64.val]
    push_cast
    ring
  · have wd : Word (0 - d) := ⟨by omega, by omega⟩
    have e : (0 - -2 ^ 63 : ℤ) = 2 ^ 63 := by norm_num
    rw [e, t1, t2, i64_word false wd]
    refine ⟨rfl, _, rfl, ?_⟩
    simp only [Ratio64.val]
    push_cast
    rw [zero_sub, div_neg]

theorem new_zero (checked : Bool) (n : ℤ) : Ratio64.new checked n 0 = none := if_pos rfl

/-- the `Ratio::new(1, m)` of `Model/Wide` is the one here -/
theorem new_one64 (checked : Bool) (m : BitVec 64) : (Ratio64.new checked 1 m.toInt).map (fun r => (r.num, r.den)) = ratioOne64 checked m := by
  have w : Word m.toInt := ⟨by have := BitVec.le_toInt m; omega, by have := BitVec.toInt_lt (x := m); omega⟩
  have imin : m = BitVec.intMin 64 ↔ m.toInt = -2 ^ 63 :=
    ⟨by rintro rfl; decide, fun h => BitVec.eq_of_toInt_eq (h.trans (by decide))⟩
  unfold ratioOne64
  by_cases h0 : m.toInt = 0
  · rw [if_pos h0, h0, new_zero]; rfl
  by_cases h1 : m.toInt = 1
  · rw [h1]; cases checked <;> rfl
  rw [if_neg h0, new_parts checked (g := 1) (a := 1) (b := m.toInt) one_pos (by norm_num) (by rw [Int.one_gcd]; rfl) (one_mul _).symm (one_mul _).symm
    one_ne_zero h0 (Ne.symm h1)]
  obtain ⟨w1, w2⟩ := w
  by_cases hneg : m.toInt < 0
  · rw [if_pos hneg, if_pos hneg, i64_word checked (x := 0 - 1) ⟨by norm_num, by norm_num⟩]
    by_cases hm : m = BitVec.intMin 64
    · rw [if_pos hm, imin.mp hm]
      cases checked <;> rfl
    · have : m.toInt ≠ -2 ^ 63 := fun h => hm (imin.mpr h)
      rw [if_neg hm, i64_word checked (x := 0 - m.toInt) ⟨by omega, by omega⟩]
      simp
  · rw [if_neg hneg, if_neg hneg]; rfl

theorem neg_ok (checked : Bool) {r : Ratio64} {x : ℚ} (h : IsRatio r x) (hm : x.num ≠ -2 ^ 63) : ∃ r', r.neg checked = some r' ∧ IsRatio r' (-x) := by
  obtain ⟨h1, h2, ⟨h3, h4⟩, h5⟩ := h
  rw [h1] at h3 h4
  have w : Word (-r.num) := by rw [h1]; exact ⟨by omega, by omega⟩
  refine ⟨⟨-r.num, r.den⟩, by unfold Ratio64.neg; rw [i64_word checked w]; rfl, ?_, ?_, w, h5⟩
  · show -r.num = _
    rw [Rat.num_neg_eq_neg_num, h1]
  · rw [Rat.den_neg_eq_den, h2]

theorem neg_min {r : Ratio64} {x : ℚ} (h : IsRatio r x) (hm : x.num = -2 ^ 63) : r.neg true = none ∧ r.neg false = some r := by
  unfold Ratio64.neg
  rw [h.1, hm]
  have e : (- -2 ^ 63 : ℤ) = 2 ^ 63 := by norm_num
  rw [e, i64_top.1, i64_top.2]
  refine ⟨rfl, ?_⟩
  rw [← hm, ← h.1]
  rfl

theorem gcd_two (x : ℤ) : (Int.gcd x 2 : ℤ) = if x % 2 = 0 then 2 else 1 := by
  by_cases h : x % 2 = 0
  · rw [if_pos h]
    exact Int.gcd_eq_right (by norm_num) (Int.dvd_of_emod_eq_zero h)
  · rw [if_neg h]
    have : Nat.Coprime x.natAbs 2 := Nat.coprime_two_right.mpr (by rw [Nat.odd_iff]; omega)
    have h2 : Int.gcd x 2 = 1 := this
    rw [h2]; rfl

/-- `r / 2` after the divisions -/
theorem half_eq (checked : Bool) (r : Ratio64) : r.half checked =
    if r.num % 2 = 0 then (i64 checked r.den).bind (fun d => Ratio64.new checked (r.num / 2) d)
    else (i64 checked (r.den * 2)).bind (fun d => Ratio64.new checked r.num d) := by
  unfold Ratio64.half gcdWord
  rw [gcd_two]
  by_cases h : r.num % 2 = 0
  · rw [if_pos h, if_pos h, i64_word checked (x := 2) ⟨by norm_num, by norm_num⟩]
    have h1 : quot64 r.num 2 = some (r.num / 2) := by
      conv_lhs => rw [← Int.mul_ediv_cancel' (Int.dvd_of_emod_eq_zero h)]
      exact quot64_mul (by norm_num)
    have h2 : quot64 2 2 = some 1 := by decide
    simp only [Option.bind_eq_bind, Option.bind_some]
    rw [h1, h2]
    simp only [Option.bind_some, mul_one]
  · rw [if_neg h, if_neg h, i64_word checked (x := 1) ⟨by norm_num, by norm_num⟩]
    have h1 : quot64 r.num 1 = some r.num := by
      conv_lhs => rw [← one_mul r.num]
      exact quot64_mul (by norm_num)
    have h2 : quot64 2 1 = some 2 := by decide
    simp only [Option.bind_eq_bind, Option.bind_some]
    rw [h1, h2]
    simp only [Option.bind_some]

theorem half_ok (checked : Bool) {r : Ratio64} {x : ℚ} (h : IsRatio r x) (hm : x.num % 2 = 0 ∨ x.den < 2 ^ 62) :
    ∃ r', r.half checked = some r' ∧ IsRatio r' (x / 2) := by
  obtain ⟨h1, h2, ⟨h3, h4⟩, h5⟩ := h
  rw [h1] at h3 h4
  have d0 : (x.den : ℤ) ≠ 0 := by exact_mod_cast x.den_nz
  have dp : (0 : ℤ) < x.den := by exact_mod_cast x.den_pos
  have hx : x = (x.num : ℚ) / (x.den : ℤ) := by exact_mod_cast (Rat.num_div_den x).symm
  rw [half_eq, h1, h2]
  by_cases he : x.num % 2 = 0
  · rw [if_pos he, i64_word checked (h2 ▸ h5)]
    obtain ⟨r', a1, a2⟩ := new_ok checked (n := x.num / 2) (d := x.den) ⟨by omega, by omega⟩ (h2 ▸ h5) d0
      (by rintro (⟨h, -⟩ | ⟨-, h, -⟩) <;> omega)
    refine ⟨r', a1, ?_⟩
    have : x / 2 = ((x.num / 2 : ℤ) : ℚ) / (x.den : ℤ) := by
      obtain ⟨k, hk⟩ := Int.dvd_of_emod_eq_zero he
      have hk2 : x.num / 2 = k := by omega
      rw [hk2]
      conv_lhs => rw [hx, hk]
      push_cast
      ring
    rw [this]
    exact a2
  · have hd : x.den < 2 ^ 62 := hm.resolve_left he
    have w : Word ((x.den : ℤ) * 2) := ⟨by omega, by omega⟩
    rw [if_neg he, i64_word checked w]
    obtain ⟨r', a1, a2⟩ := new_ok checked (n := x.num) (d := x.den * 2) ⟨by omega, by omega⟩ w (by omega)
      (by rintro (⟨h, -⟩ | ⟨-, h, -⟩) <;> omega)
    refine ⟨r', a1, ?_⟩
    have : x / 2 = (x.num : ℚ) / ((x.den * 2 : ℤ) : ℚ) := by
      conv_lhs => rw [hx]
      push_cast
      rw [div_div]
    rw [this]
    exact a2

theorem half_overflows {r : Ratio64} {x : ℚ} (h : IsRatio r x) (ho : x.num % 2 = 1) (hd : 2 ^ 62 ≤ x.den) :
    r.half true = none ∧ ∃ r', r.half false = some r' ∧
      r'.val = if x.den = 2 ^ 62 then x / 2 else (x.num : ℚ) / (2 * x.den - 2 ^ 64) := by
  obtain ⟨h1, h2, ⟨h3, h4⟩, h5, h6⟩ := h
  rw [h1] at h3 h4
  rw [h2] at h5 h6
  have hx : x = (x.num : ℚ) / (x.den : ℤ) := by exact_mod_cast (Rat.num_div_den x).symm
  have nw : ¬Word ((x.den : ℤ) * 2) := by rintro ⟨-, h⟩; omega
  have he : ¬x.num % 2 = 0 := by omega
  rw [half_eq, half_eq, h1, h2, if_neg he, if_neg he, i64_checked nw, i64_unchecked nw]
  refine ⟨rfl, ?_⟩
  have hb : ((x.den : ℤ) * 2).bmod (2 ^ 64) = 2 * x.den - 2 ^ 64 := by
    rw [Int.bmod_def]
    have : ((x.den : ℤ) * 2) % ((2 ^ 64 : ℕ) : ℤ) = x.den * 2 := Int.emod_eq_of_lt (by omega) (by push_cast; omega)
    rw [this, if_neg (by push_cast; omega)]
    push_cast
    ring
  rw [hb, Option.bind_some]
  have w : Word (2 * (x.den : ℤ) - 2 ^ 64) := ⟨by omega, by omega⟩
  by_cases hc : x.den = 2 ^ 62
  · have hm : (2 * (x.den : ℤ) - 2 ^ 64) = -2 ^ 63 := by rw [hc]; norm_num
    obtain ⟨-, r', a1, a2⟩ := new_overflows (n := x.num) (d := 2 * (x.den : ℤ) - 2 ^ 64) ⟨by omega, by omega⟩ w (Or.inl ⟨hm, ho⟩)
    refine ⟨r', a1, ?_⟩
    rw [if_pos hc, a2, hm]
    conv_rhs => rw [hx]
    rw [hc]
    push_cast
    ring
  · obtain ⟨r', a1, a2⟩ := new_ok false (n := x.num) (d := 2 * (x.den : ℤ) - 2 ^ 64) ⟨by omega, by omega⟩ w (by omega)
      (by rintro (⟨h, -⟩ | ⟨h, -, -⟩) <;> omega)
    refine ⟨r', a1, ?_⟩
    rw [if_neg hc, a2.val]
    push_cast
    rfl

end Verif
