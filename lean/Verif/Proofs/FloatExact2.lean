import Verif.Proofs.FloatExact

/-! # Measurements and circuits without rounding -/

namespace Verif
open MatrixOp Finset

/-- the vector of the basis state `z` with the amplitude `u` -/
noncomputable def unitVec (n z : ℕ) (u : ℂ) : List ℂ := (List.replicate (2 ^ n) 0).set z u

theorem unitVec_length (n z : ℕ) (u : ℂ) : (unitVec n z u).length = 2 ^ n := by simp [unitVec]

theorem unitVec_get (n z : ℕ) (u : ℂ) (r : ℕ) (hr : r < 2 ^ n) : (unitVec n z u)[r]? = some (if r = z then u else 0) := by
  unfold unitVec
  rw [List.getElem?_set]
  by_cases h : z = r
  · subst h; simp [hr]
  · rw [if_neg h, List.getElem?_replicate, if_pos hr, if_neg fun e => h e.symm]

theorem unitVec_vals (n z : ℕ) (u : ℂ) (r : ℕ) (hr : r < 2 ^ n) : vals id (unitVec n z u) r = if r = z then u else 0 := by
  unfold vals
  rw [unitVec_get n z u r hr]
  rfl

theorem unitVec_quarter (n z : ℕ) (u : ℂ) (hu : Quarter u) : ∀ c ∈ unitVec n z u, Quarter c := by
  intro c hc
  rcases List.mem_or_eq_of_mem_set hc with h | rfl
  · rw [List.mem_replicate] at h
    exact .inl h.2
  · exact hu

theorem eq_unitVec (n z : ℕ) (u : ℂ) (w : List ℂ) (hw : w.length = 2 ^ n) (h : ∀ r, r < 2 ^ n → vals id w r = if r = z then u else 0) : w = unitVec n z u := by
  apply List.ext_getElem?
  intro r
  by_cases hr : r < 2 ^ n
  · rw [unitVec_get n z u r hr, ← h r hr]
    unfold vals
    rw [List.getElem?_eq_getElem (by omega)]
    rfl
  · rw [List.getElem?_eq_none (by omega), List.getElem?_eq_none (by rw [unitVec_length]; omega)]

theorem normSq_unit {u : ℂ} (hu : Quarter u) (h0 : u ≠ 0) : ‖u‖ ^ 2 = 1 := by
  rw [← Complex.normSq_eq_norm_sq, hu.normSq, if_neg h0]

theorem unitVec_nrm (n z : ℕ) (hz : z < 2 ^ n) (u : ℂ) (hu : Quarter u) (h0 : u ≠ 0) : nrm n (vals id (unitVec n z u)) = 1 := by
  unfold nrm
  rw [sum_congr rfl fun r hr => by rw [unitVec_vals n z u r (mem_range.mp hr)]]
  have : ∀ r, ‖(if r = z then u else 0)‖ ^ 2 = if r = z then 1 else 0 := by
    intro r; split
    · exact normSq_unit hu h0
    · simp
  rw [sum_congr rfl fun r _ => this r, sum_ite_eq', if_pos (mem_range.mpr hz), Real.sqrt_one]

/-- a vector of such numbers of length one is a basis state -/
theorem unit_of_nrm (n : ℕ) (w : List ℂ) (hw : w.length = 2 ^ n) (hq : ∀ c ∈ w, Quarter c) (h1 : nrm n (vals id w) = 1) :
    ∃ z u, z < 2 ^ n ∧ Quarter u ∧ u ≠ 0 ∧ w = unitVec n z u := by
  classical
  have hs := nrm_sq n (vals id w)
  rw [h1, one_pow] at hs
  have hv : ∀ r, r < 2 ^ n → Quarter (vals id w r) := by
    intro r hr
    unfold vals
    rw [List.getElem?_eq_getElem (by omega)]
    exact hq _ (List.getElem_mem _)
  obtain ⟨z, hz, hz0⟩ : ∃ z, z < 2 ^ n ∧ vals id w z ≠ 0 := by
    by_contra hc
    push Not at hc
    rw [sum_eq_zero fun r hr => by rw [hc r (mem_range.mp hr)]; simp] at hs
    norm_num at hs
  refine ⟨z, vals id w z, hz, hv z hz, hz0, eq_unitVec n z _ w hw fun r hr => ?_⟩
  by_cases h : r = z
  · rw [if_pos h, h]
  · rw [if_neg h]
    by_contra h0
    have h2 : ∑ x ∈ ({r, z} : Finset ℕ), ‖vals id w x‖ ^ 2 ≤ ∑ x ∈ range (2 ^ n), ‖vals id w x‖ ^ 2 :=
      sum_le_sum_of_subset_of_nonneg (by
        intro x hx
        simp only [mem_insert, mem_singleton] at hx
        rcases hx with rfl | rfl <;> simpa) fun _ _ _ => by positivity
    rw [sum_pair h, normSq_unit (hv r hr) h0, normSq_unit (hv z hz) hz0, ← hs] at h2
    norm_num at h2

theorem unitVec_cumul (n z : ℕ) (u : ℂ) (hu : Quarter u) (h0 : u ≠ 0) (k : ℕ) (hk : k ≤ 2 ^ n) :
    cumul (vals id (unitVec n z u)) k = if z < k then 1 else 0 := by
  unfold cumul
  rw [sum_congr rfl fun r hr => by rw [unitVec_vals n z u r (by have := mem_range.mp hr; omega)]]
  have : ∀ r, ‖(if r = z then u else 0)‖ ^ 2 = if r = z then 1 else 0 := by
    intro r; split
    · exact normSq_unit hu h0
    · simp
  rw [sum_congr rfl fun r _ => this r, sum_ite_eq']
  simp

open Classical in
theorem unitVec_born (n z : ℕ) (hz : z < 2 ^ n) (u : ℂ) (hu : Quarter u) (h0 : u ≠ 0) (idx : List ℕ) :
    bornProb n idx (outcomeOf n idx z) (vals id (unitVec n z u)) = 1 := by
  unfold bornProb
  rw [sum_eq_single z]
  · rw [unitVec_vals n z u z hz, if_pos rfl, hu.normSq, if_neg h0]
  · intro r hr hne
    rw [unitVec_vals n z u r (mem_range.mp (mem_filter.mp hr).1), if_neg hne]
    simp
  · intro h
    exact absurd (mem_filter.mpr ⟨mem_range.mpr hz, spells_outcomeOf n idx z⟩) h

/-- the exact measurement of a basis state -/
theorem calcStep_unit (n : ℕ) (rnds : ℕ → ℝ) (s : CalcState) (z : ℕ) (hz : z < 2 ^ n) (u : ℂ) (hu : Quarter u) (h0 : u ≠ 0) (hs : s.state = unitVec n z u)
    (ha : s.arena.length = 2 ^ n) (idx : List ℕ) (w : ℕ) (hn : idx.Nodup) (hidx : ∀ i ∈ idx, i < n) (r0 : 0 < rnds s.measurements.length)
    (r1 : rnds s.measurements.length < 1) :
    calcStep n rnds s (idx, ⟨w, .meas .measurement⟩) = some ⟨unitVec n z u, unitVec n z u, s.measurements ++ [.single (outcomeOf n idx z) 1]⟩ := by
  classical
  obtain ⟨x, m, Q, s', x1, x2, x3, rfl, rfl, -, c1, c2, c3, -, -, c6⟩ := calcStep_collapse n rnds s (by rw [hs, unitVec_length]) ha
    (by rw [hs]; exact unitVec_nrm n z hz u hu h0) idx w hn hidx r0 r1
  rw [hs, unitVec_cumul n z u hu h0 _ (by omega)] at x2 x3
  obtain rfl : x = z := by
    have h1 : ¬ z < x := fun h => by rw [if_pos h] at x2; linarith
    have h2 : z < x + 1 := by
      by_contra h
      rw [if_neg h] at x3; linarith
    omega
  rw [hs, unitVec_born n x hz u hu h0] at c2
  rw [hs] at c6
  have hst : s'.state = unitVec n x u := by
    refine eq_unitVec n x u _ c3 fun r hr => ?_
    rw [c6 r hr]
    unfold collapsed
    rw [unitVec_born n x hz u hu h0, unitVec_vals n x u r hr, Real.sqrt_one]
    by_cases h : r = x
    · subst h
      rw [if_pos (spells_outcomeOf n idx r)]
      simp
    · rw [if_neg h]
      simp
  have har : s'.arena = s.state := by
    have h : calcStep n rnds s (idx, ⟨w, .meas .measurement⟩) = (measure n idx s.state s.arena none none (rnds s.measurements.length)).bind
        fun x => some { state := x.2, arena := s.state, measurements := s.measurements ++ [.single x.1.1 x.1.2] } := rfl
    rw [c1] at h
    cases hm : measure n idx s.state s.arena none none (rnds s.measurements.length) with
    | none => rw [hm] at h; cases h
    | some y =>
      rw [hm] at h
      injection h with h
      rw [h]
  rw [c1]
  obtain ⟨a, b, c⟩ := s'
  simp only at hst har c2
  rw [hst, har, hs, c2]

variable {f : Format} {fl : ℝ → ℝ}

namespace Format.Arith

theorem normSqr_stored (A : f.Arith fl) {z : ℂ} (h : Quarter z) : normSqrP A.prec (A.stored z) = A.round (Complex.normSq z) := by
  show A.add (A.mul (A.round z.re) (A.round z.re)) (A.mul (A.round z.im) (A.round z.im)) = _
  have t1 := h.re.mul h.re
  have t2 := h.im.mul h.im
  rw [mul_part A _ _ (fits_trit A h.re) (fits_trit A h.re) h.re.abs h.re.abs, mul_part A _ _ (fits_trit A h.im) (fits_trit A h.im) h.im.abs h.im.abs,
    add_part A _ _ (fits_trit A t1) (fits_trit A t2) t1.abs t2.abs, Complex.normSq_apply]

theorem softLoop_stored (A : f.Arith fl) (w : List ℂ) (k i : ℕ) (u : ℂ) (hu : Quarter u) (h0 : u ≠ 0) (hz : ∀ j, j < k → w[j]? = some 0) (hk : w[k]? = some u) (r : f.Fin)
    (r0 : 0 < r.1) (r1 : r.1 ≤ 1) : softLoopP A.prec (w.map A.stored) i (some r) = some (i + k) := by
  induction w generalizing k i with
  | nil => cases hk
  | cons c w ih =>
    have hle : ∀ (a : ℝ) (h : f.Fits a ∧ |a| ≤ f.top), A.prec.le (some ⟨a, h⟩) A.prec.zero = decide (a ≤ 0) := by
      intro a h
      show A.prec.le (some ⟨a, h⟩) (A.round 0) = _
      rw [round_zero]
      rfl
    cases k with
    | zero =>
      obtain rfl : c = u := by simpa using hk
      show (if A.prec.le (A.sub (some r) (normSqrP A.prec (A.stored c))) A.prec.zero then some i else _) = _
      rw [normSqr_stored A hu, hu.normSq, if_neg h0, round_one]
      have e : A.sub (some r) (some ⟨1, fits_one A, by rw [abs_one]; linarith [top_ge A]⟩) = A.round (r.1 - 1) := rfl
      have hb : |fl (r.1 - 1)| ≤ f.top := A.le_top (abs_fl_le A _ (by rw [_root_.abs_le]; constructor <;> linarith))
      have e2 : A.round (r.1 - 1) = some ⟨fl (r.1 - 1), A.near.fits _, hb⟩ := by
        unfold round
        rw [dif_pos hb]
      rw [e, e2, hle, if_pos (decide_eq_true (fl_le A (fits_zero f) (by linarith)))]
      rfl
    | succ k =>
      obtain rfl : c = 0 := by simpa using hz 0 (by omega)
      show (if A.prec.le (A.sub (some r) (normSqrP A.prec (A.stored 0))) A.prec.zero then some i else
        softLoopP A.prec (w.map A.stored) (i + 1) (A.sub (some r) (normSqrP A.prec (A.stored 0)))) = _
      rw [normSqr_stored A quarter_zero, Complex.normSq_zero, round_zero]
      have e : A.sub (some r) (some ⟨0, fits_zero f, by rw [abs_zero]; linarith [top_ge A]⟩) = A.round (r.1 - 0) := rfl
      rw [e, sub_zero, round_fix A r.1 r.2.1 r.2.2, hle, if_neg (by simpa using r0)]
      exact (ih k (i + 1) (fun j hj => by simpa using hz (j + 1) (by omega)) (by simpa using hk)).trans (by congr 1; omega)

/-- sums of zeros and at most one one -/
theorem bit_sum (xs : List ℝ) (h : ∀ x ∈ xs, x = 0 ∨ x = 1) : 0 ≤ xs.sum ∧ (xs.sum ≤ 1 → Trit xs.sum) := by
  induction xs with
  | nil => exact ⟨le_rfl, fun _ => .inl rfl⟩
  | cons x xs ih =>
    obtain ⟨h1, h2⟩ := ih fun x hx => h x (by simp [hx])
    rw [List.sum_cons]
    rcases h x (by simp) with rfl | rfl
    · rw [zero_add]; exact ⟨h1, h2⟩
    · refine ⟨by linarith, fun h3 => ?_⟩
      have : xs.sum = 0 := by linarith
      rw [this, add_zero]; exact trit_one

theorem sums_stored (A : f.Arith fl) (l : List f.Part) (p : f.Part) (h : SumsP A.prec l p) (xs : List ℝ) (hl : l = xs.map A.round) (hx : ∀ x ∈ xs, x = 0 ∨ x = 1)
    (h1 : xs.sum ≤ 1) : p = A.round xs.sum := by
  induction h generalizing xs with
  | nil =>
    obtain rfl : xs = [] := by simpa using hl.symm
    rfl
  | snoc l s x _ ih =>
    obtain ⟨ys, zs, rfl, hy, hz⟩ := List.append_eq_map_iff.mp hl
    obtain ⟨z, rfl, rfl⟩ : ∃ z, zs = [z] ∧ A.round z = x := by
      cases zs with
      | nil => cases hz
      | cons z zs =>
        simp only [List.map_cons, List.cons.injEq, List.map_eq_nil_iff] at hz
        exact ⟨z, by rw [hz.2], hz.1⟩
    obtain ⟨a1, a2⟩ := bit_sum ys fun x hx' => hx x (by simp [hx'])
    have hz : z = 0 ∨ z = 1 := hx z (by simp)
    rw [List.sum_append, List.sum_singleton] at h1 ⊢
    have hz0 : 0 ≤ z := by rcases hz with rfl | rfl <;> norm_num
    have t1 := a2 (by linarith)
    have t2 : Trit z := by rcases hz with h | h <;> simp [Trit, h]
    rw [ih ys hy.symm (fun x hx' => hx x (by simp [hx'])) (by linarith)]
    exact add_part A _ _ (fits_trit A t1) (fits_trit A t2) t1.abs t2.abs
  | join a b s t _ _ ih1 ih2 =>
    obtain ⟨ys, zs, rfl, hy, hz⟩ := List.append_eq_map_iff.mp hl
    obtain ⟨a1, a2⟩ := bit_sum ys fun x hx' => hx x (by simp [hx'])
    obtain ⟨b1, b2⟩ := bit_sum zs fun x hx' => hx x (by simp [hx'])
    rw [List.sum_append] at h1 ⊢
    have t1 := a2 (by linarith)
    have t2 := b2 (by linarith)
    rw [ih1 ys hy.symm (fun x hx' => hx x (by simp [hx'])) (by linarith), ih2 zs hz.symm (fun x hx' => hx x (by simp [hx'])) (by linarith)]
    show A.add (A.add (A.round 0) (A.round ys.sum)) (A.round zs.sum) = _
    rw [add_part A _ _ (fits_zero f) (fits_trit A t1) trit_zero.abs t1.abs, zero_add, add_part A _ _ (fits_trit A t1) (fits_trit A t2) t1.abs t2.abs]

/-- the measurement of a basis state in floating point arithmetic -/
theorem measure_stored (A : f.Arith fl) (n z : ℕ) (hz : z < 2 ^ n) (u : ℂ) (hu : Quarter u) (h0 : u ≠ 0) (idx : List ℕ) (hn : idx.Nodup) (hidx : ∀ i ∈ idx, i < n)
    (arena : List A.Num) (ha : arena.length = 2 ^ n) (r : f.Fin) (r0 : 0 < r.1) (r1 : r.1 ≤ 1) (m : ℕ) (p : f.Part) (out : List A.Num)
    (h : MeasureP A.prec n idx ((unitVec n z u).map A.stored) arena (some r) m p out) :
    m = outcomeOf n idx z ∧ p = A.round 1 ∧ out = (unitVec n z u).map A.stored := by
  classical
  obtain ⟨h1, ⟨ts, h2, h3⟩, h4⟩ := h
  have hr : A.prec.mul (some r) A.prec.one = some r := by
    show A.mul (some r) (A.round 1) = _
    rw [round_one]
    show A.round (r.1 * 1) = _
    rw [mul_one, round_fix A r.1 r.2.1 r.2.2]
    rfl
  rw [softMeasureP_eq _ n idx hidx, hr, softLoop_stored A _ z 0 u hu h0 (fun j hj => by rw [unitVec_get n z u j (by omega), if_neg (by omega)])
    (by rw [unitVec_get n z u z hz, if_pos rfl]) r r0 r1] at h1
  simp only [Option.getD_some, Nat.zero_add, Option.some.injEq] at h1
  subst h1
  have he := measureTerms_exact n (outcomeOf n idx z) idx (unitVec n z u) none
  rw [measureProb_eq n _ idx hn hidx, Option.getD_none, vals_id_amp, unitVec_born n z hz u hu h0, Option.map_eq_some_iff] at he
  obtain ⟨xs, x1, x2⟩ := he
  obtain ⟨ts', t1, t2⟩ := terms_rel A.prec exactPrec (fun c c' => ∃ q, Quarter q ∧ c = A.stored q ∧ c' = reIm q) (fun a b => a = A.round b ∧ (b = 0 ∨ b = 1)) (by
      rintro c c' ⟨q, hq, rfl, rfl⟩
      refine ⟨?_, normSqr_stored A hq |>.trans (by rw [normSqr_exact]), by rw [normSqr_exact, hq.normSq]; split <;> simp⟩
      have hb : ∀ {x : ℝ}, Trit x → A.prec.beq (A.round x) A.prec.zero = decide (x = 0) := by
        intro x hx
        show A.prec.beq (A.round x) (A.round 0) = _
        rw [round_trit A hx, round_zero]
        rfl
      show (A.prec.beq (A.round q.re) A.prec.zero && A.prec.beq (A.round q.im) A.prec.zero) = (decide (q.re = 0) && decide (q.im = 0))
      rw [hb hq.re, hb hq.im]) ⟨0, quarter_zero, rfl, rfl⟩ n (outcomeOf n idx z) idx ((unitVec n z u).map A.stored) ((unitVec n z u).map reIm) (by
      have hq := unitVec_quarter n z u hu
      generalize unitVec n z u = w at hq
      induction w with
      | nil => exact .nil
      | cons c w ih => exact .cons ⟨c, hq c (by simp), rfl, rfl⟩ (ih fun c hc => hq c (by simp [hc]))) none xs x1
  obtain rfl : ts' = ts := by rw [h2] at t1; exact (Option.some.inj t1).symm
  have hp : p = A.round 1 := by
    have := sums_stored A ts' p h3 xs (by
      clear x1 x2 t1 h2 h3
      induction t2 with
      | nil => rfl
      | cons h _ ih => rw [h.1, ih]; rfl) (by
      clear x1 x2 t1 h2 h3
      induction t2 with
      | nil => simp
      | cons h _ ih =>
        intro x hx
        rcases List.mem_cons.mp hx with rfl | hx
        · exact h.2
        · exact ih x hx) x2.le
    rw [this, x2]
  subst hp
  refine ⟨rfl, rfl, ?_⟩
  have hl : ((unitVec n z u).map A.stored).length = 2 ^ n := by rw [List.length_map, unitVec_length]
  have hb : A.prec.beq (A.round 1) A.prec.zero = false := by
    show A.prec.beq (A.round 1) (A.round 0) = _
    rw [round_one, round_zero]
    show decide ((1 : ℝ) = 0) = false
    simp
  have hd : A.prec.div A.prec.one (A.prec.sqrt (A.round 1)) = A.round 1 := by
    have e1 : A.prec.sqrt (A.round 1) = A.round 1 := by
      rw [round_one]
      show (if (1 : ℝ) < 0 then none else A.round (Real.sqrt 1)) = _
      rw [if_neg (by norm_num), Real.sqrt_one, round_one]
    rw [e1]
    show A.prec.div (A.round 1) (A.round 1) = _
    rw [round_one]
    show (if (1 : ℝ) = 0 then none else A.round (1 / 1)) = _
    rw [if_neg (by norm_num), div_one, round_one]
  have hm1 : ∀ {x : ℝ}, Trit x → A.mul (A.round x) (A.round 1) = A.round x := by
    intro x hx
    rw [mul_part A _ _ (fits_trit A hx) (fits_one A) hx.abs trit_one.abs, mul_one]
  obtain ⟨out', o1, o2, o3⟩ := measureStateP_any A.prec n (outcomeOf n idx z) idx hn hidx (A.round 1) hb ((unitVec n z u).map A.stored) arena hl ha
  obtain rfl : out' = out := by rw [o1] at h4; exact Option.some.inj h4
  apply List.ext_getElem?
  intro k
  by_cases hk : k < 2 ^ n
  · have hk' := lt_of_lt_of_eq hk hl.symm
    have hg : ((unitVec n z u).map A.stored)[k]? = some (A.stored (if k = z then u else 0)) := by
      rw [List.getElem?_map, unitVec_get n z u k hk]; rfl
    have hg' : ((unitVec n z u).map A.stored)[k] = A.stored (if k = z then u else 0) := by
      rw [List.getElem?_eq_getElem hk'] at hg
      exact Option.some.inj hg
    have o4 := o3 k hk'
    rw [hd] at o4
    refine (o4.trans ?_).trans hg.symm
    congr 1
    by_cases hkz : k = z
    · subst hkz
      rw [if_pos (spells_outcomeOf n idx k)]
      rw [if_pos rfl] at hg' ⊢
      refine Prod.ext ?_ ?_
      · exact (congrArg (fun c : A.Num => A.mul c.1 (A.round 1)) hg').trans (hm1 hu.re)
      · exact (congrArg (fun c : A.Num => A.mul c.2 (A.round 1)) hg').trans (hm1 hu.im)
    · rw [if_neg hkz] at hg' ⊢
      split
      · refine Prod.ext ?_ ?_
        · exact (congrArg (fun c : A.Num => A.mul c.1 (A.round 1)) hg').trans (hm1 trit_zero)
        · exact (congrArg (fun c : A.Num => A.mul c.2 (A.round 1)) hg').trans (hm1 trit_zero)
      · rfl
  · have h1 : (out' : List A.Num).length ≤ k := by
      have : out'.length ≤ k := by omega
      exact this
    have h2 : ((unitVec n z u).map A.stored).length ≤ k := by rw [List.length_map, unitVec_length]; omega
    exact (List.getElem?_eq_none h1).trans (List.getElem?_eq_none h2).symm

end Format.Arith
end Verif
