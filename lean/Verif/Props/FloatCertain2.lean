import Verif.Props.FloatCertain

/-!
# Property C127: how many sequences of draws are certain of their outcomes

C127 leaves out the draws near a finite set `D` of numbers. Here they are counted: of all sequences of draws `0, 1/N, …, (N-1)/N`, one draw for each measurement, few have a
draw near `D`. This improves the bounds that C123 and C125 give for such programs.
-/

namespace Verif.Props
open Verif MatrixOp Format.Arith Finset

variable {f : Format} {fl : ℝ → ℝ}

/-- the number of measurements in a circuit -/
theorem runs_count (A : f.Arith fl) {n : ℕ} {rnds : ℕ → f.Part} {els : List (ElemP A.Num)} {s t : StateP A.Num f.Part}
    (h : RunsP A.prec (fun c : A.Num => c) (fun c => c) n rnds els s t) :
    t.measurements.length = s.measurements.length + els.countP (fun e => match e with | .op _ => false | .measurement _ => true) := by
  induction h with
  | nil s => simp
  | op o es s t arena _ _ ih => rw [ih]; simp
  | measurement idx es s t m p out _ _ ih => rw [ih]; simp; omega

/-- a run uses one draw for each measurement, and no others -/
theorem runs_draws (A : f.Arith fl) {n : ℕ} {rnds rnds' : ℕ → f.Part} {els : List (ElemP A.Num)} {s t : StateP A.Num f.Part}
    (h : RunsP A.prec (fun c : A.Num => c) (fun c => c) n rnds els s t) (e : ∀ k, k < t.measurements.length → rnds k = rnds' k) :
    RunsP A.prec (fun c : A.Num => c) (fun c => c) n rnds' els s t := by
  induction h with
  | nil s => exact .nil s
  | op o es s t arena h1 _ ih => exact .op o es s t arena h1 (ih e)
  | measurement idx es s t m p out h1 h2 ih =>
    refine .measurement idx es s t m p out ?_ (ih e)
    rw [← e _ ?_]
    · exact h1
    · obtain ⟨l, hl⟩ := runs_prefix A h2
      rw [hl]
      simp

/-- at most `2·δ·N + 1` of the numbers `0, 1/N, 2/N, …` are within `δ` of a given number -/
theorem near_count (N : ℕ) (hN : 0 < N) (δ : ℝ) (hδ : 0 ≤ δ) (z : ℝ) :
    ((univ.filter fun j : Fin N => |((j : ℕ) : ℝ) / N - z| ≤ δ).card : ℝ) ≤ 2 * δ * N + 1 := by
  have hN' : (0 : ℝ) < N := by exact_mod_cast hN
  have hsub : ((univ.filter fun j : Fin N => |((j : ℕ) : ℝ) / N - z| ≤ δ).image fun j : Fin N => ((j : ℕ) : ℤ)) ⊆ Finset.Icc ⌈(z - δ) * N⌉ ⌊(z + δ) * N⌋ := by
    intro i hi
    rw [Finset.mem_image] at hi
    obtain ⟨j, hj, rfl⟩ := hi
    have := (_root_.abs_le.mp (mem_filter.mp hj).2)
    rw [Finset.mem_Icc, Int.ceil_le, Int.le_floor]
    push_cast
    constructor
    · rw [← le_div_iff₀ hN']; linarith
    · rw [← div_le_iff₀ hN']; linarith
  have hinj : Function.Injective fun j : Fin N => ((j : ℕ) : ℤ) := fun a b h => Fin.ext (by simpa using h)
  have hc := card_le_card hsub
  rw [card_image_of_injective _ hinj, Int.card_Icc] at hc
  have h1 : (((⌊(z + δ) * N⌋ + 1 - ⌈(z - δ) * N⌉).toNat : ℕ) : ℝ) ≤ 2 * δ * N + 1 := by
    rcases le_total 0 (⌊(z + δ) * N⌋ + 1 - ⌈(z - δ) * N⌉) with h | h
    · have e : (((⌊(z + δ) * N⌋ + 1 - ⌈(z - δ) * N⌉).toNat : ℕ) : ℝ) = ((⌊(z + δ) * N⌋ + 1 - ⌈(z - δ) * N⌉ : ℤ) : ℝ) := by
        rw [← Int.cast_natCast, Int.toNat_of_nonneg h]
      rw [e]
      push_cast
      have a := Int.floor_le ((z + δ) * N)
      have b := Int.le_ceil ((z - δ) * N)
      nlinarith
    · rw [Int.toNat_of_nonpos h]
      push_cast
      positivity
  exact (by exact_mod_cast hc : ((univ.filter fun j : Fin N => |((j : ℕ) : ℝ) / N - z| ≤ δ).card : ℝ) ≤ _).trans h1

/-- sequences with a bad draw -/
theorem bad_sequences (N J : ℕ) (hN : 0 < N) (P : Fin N → Prop) [DecidablePred P] :
    ((univ.filter fun js : Fin J → Fin N => ∃ i, P (js i)).card : ℝ) ≤ J * ((univ.filter P).card / N) * (N : ℝ) ^ J := by
  classical
  have hN' : (N : ℝ) ≠ 0 := by exact_mod_cast hN.ne'
  have hsub : (univ.filter fun js : Fin J → Fin N => ∃ i, P (js i)) ⊆ univ.biUnion fun i : Fin J => univ.filter fun js : Fin J → Fin N => P (js i) := by
    intro js hjs
    obtain ⟨i, hi⟩ := (mem_filter.mp hjs).2
    exact mem_biUnion.mpr ⟨i, mem_univ _, mem_filter.mpr ⟨mem_univ _, hi⟩⟩
  have hone : ∀ i : Fin J, ((univ.filter fun js : Fin J → Fin N => P (js i)).card : ℝ) = ((univ.filter P).card / N) * (N : ℝ) ^ J := by
    intro i
    have e : (univ.filter fun js : Fin J → Fin N => P (js i)) = Fintype.piFinset fun k : Fin J => if k = i then univ.filter P else univ := by
      ext js
      simp only [mem_filter, mem_univ, true_and, Fintype.mem_piFinset]
      constructor
      · intro h k
        split
        · rename_i hk; subst hk; simpa using h
        · simp
      · intro h; simpa using h i
    rw [e, Fintype.card_piFinset]
    have : ∀ k : Fin J, (if k = i then univ.filter P else univ).card = if k = i then (univ.filter P).card else N := by
      intro k; split <;> simp
    simp only [this]
    rw [prod_ite, prod_const, prod_const]
    have c1 : (univ.filter fun k : Fin J => k = i).card = 1 := by rw [filter_eq']; simp
    have c2 : (univ.filter fun k : Fin J => ¬ k = i).card = J - 1 := by
      rw [filter_ne', card_erase_of_mem (mem_univ _)]; simp
    rw [c1, c2, pow_one]
    have hJ : J = J - 1 + 1 := by have := i.2; omega
    push_cast
    have hp : (N : ℝ) ^ J = (N : ℝ) ^ (J - 1) * N := by rw [← pow_succ, ← hJ]
    rw [hp, div_mul_eq_mul_div, eq_div_iff hN', mul_assoc]
  calc ((univ.filter fun js : Fin J → Fin N => ∃ i, P (js i)).card : ℝ)
      ≤ ((univ.biUnion fun i : Fin J => univ.filter fun js : Fin J → Fin N => P (js i)).card : ℝ) := by exact_mod_cast card_le_card hsub
    _ ≤ ∑ i : Fin J, ((univ.filter fun js : Fin J → Fin N => P (js i)).card : ℝ) := by exact_mod_cast card_biUnion_le
    _ = J * ((univ.filter P).card / N) * (N : ℝ) ^ J := by
      rw [sum_congr rfl fun i _ => hone i, sum_const, card_univ, Fintype.card_fin, nsmul_eq_mul, mul_assoc]

/-- C127, counted: if runs are certain of the `J` outcomes `ms` for draws further than `δ` from the numbers of `D`, then over all `N ^ J` sequences of draws
`0, 1/N, …, (N-1)/N`, whatever the order of the additions in each of the runs, at least `1 - J·|D|·(2δ + 1/N)` of the runs report exactly `ms`. -/
theorem C127_share (A : f.Arith fl) {n : ℕ} {els : List (ElemP A.Num)} {x : ℕ} {D : Finset ℝ} {ms : List ℕ} {χ : Wave} {δ κ B : ℝ} (hδ : 0 ≤ δ)
    (h : CertainRuns A n els x D ms χ δ κ B) (h0 : 0 ∈ D) (hms : ms ≠ []) (N : ℕ) (hN : 0 < N) (d : ℕ → f.Fin) (hd : ∀ j, j < N → (d j).1 = (j : ℝ) / N)
    (rnds : (Fin ms.length → Fin N) → ℕ → f.Part) (hr : ∀ js (i : Fin ms.length), rnds js i = some (d (js i)))
    (run : (Fin ms.length → Fin N) → StateP A.Num f.Part)
    (hrun : ∀ js, RunsP A.prec (fun c : A.Num => c) (fun c => c) n (rnds js) els
      ⟨(List.replicate (2 ^ n) 0).set x 1, List.replicate (2 ^ n) 0, []⟩ (run js)) :
    1 - ms.length * (D.card * (2 * δ + 1 / N)) ≤ shareOf N ms.length (fun js => (run js).measurements.map Prod.fst = ms) := by
  classical
  have hN' : (0 : ℝ) < N := by exact_mod_cast hN
  have hJ : 0 < ms.length := List.length_pos_iff.mpr hms
  let P : Fin N → Prop := fun j => ∃ z ∈ D, |((j : ℕ) : ℝ) / N - z| ≤ δ
  have hP : ((univ.filter P).card : ℝ) ≤ D.card * (2 * δ * N + 1) := by
    have hsub : univ.filter P ⊆ D.biUnion fun z => univ.filter fun j : Fin N => |((j : ℕ) : ℝ) / N - z| ≤ δ := by
      intro j hj
      obtain ⟨z, hz, hz'⟩ := (mem_filter.mp hj).2
      exact mem_biUnion.mpr ⟨z, hz, mem_filter.mpr ⟨mem_univ _, hz'⟩⟩
    calc ((univ.filter P).card : ℝ) ≤ ∑ z ∈ D, ((univ.filter fun j : Fin N => |((j : ℕ) : ℝ) / N - z| ≤ δ).card : ℝ) := by
          exact_mod_cast (card_le_card hsub).trans card_biUnion_le
      _ ≤ ∑ z ∈ D, (2 * δ * N + 1) := sum_le_sum fun z _ => near_count N hN δ hδ z
      _ = _ := by rw [sum_const, nsmul_eq_mul]
  have hgood : ∀ js, (∀ i, ¬ P (js i)) → (run js).measurements.map Prod.fst = ms := by
    intro js hjs
    have hdr : ∀ i : Fin ms.length, 0 < (d (js i)).1 ∧ (d (js i)).1 < 1 ∧ ∀ z ∈ (D : Set ℝ), δ < |(d (js i)).1 - z| := by
      intro i
      have e := hd (js i) (js i).2
      have hz : ∀ z ∈ (D : Set ℝ), δ < |(d (js i)).1 - z| := by
        intro z hz
        by_contra hc
        exact hjs i ⟨z, hz, by rw [← e]; exact not_lt.mp hc⟩
      refine ⟨?_, ?_, hz⟩
      · have a := hz 0 h0
        rw [sub_zero, e] at a
        have b : (0 : ℝ) ≤ ((js i : ℕ) : ℝ) / N := by positivity
        rw [abs_of_nonneg b] at a
        rw [e]
        exact lt_of_le_of_lt hδ a
      · rw [e, div_lt_one hN']
        exact_mod_cast (js i).2
    let r' : ℕ → f.Fin := fun k => d (js ⟨min k (ms.length - 1), by omega⟩)
    obtain ⟨⟨t, ht⟩, k2⟩ := h r' fun k => hdr _
    have c1 := runs_count A ht
    have c2 := runs_count A (hrun js)
    have c3 := (k2 t ht).1.length_eq
    have key := (k2 _ (runs_draws A (rnds' := fun k => some (r' k)) (hrun js) fun k hk => by
      have hk' : k < ms.length := by rw [← c3, c1, ← c2]; exact hk
      rw [hr js ⟨k, hk'⟩]
      have hmin : min k (ms.length - 1) = k := by omega
      have e : (⟨k, hk'⟩ : _root_.Fin ms.length) = ⟨min k (ms.length - 1), by omega⟩ := by
        rw [Fin.mk.injEq, hmin]
      show some (d (js ⟨k, hk'⟩)) = some (d (js ⟨min k (ms.length - 1), by omega⟩))
      rw [e])).1
    have e : ∀ (l : List (ℕ × f.Part)) (ms : List ℕ), List.Forall₂ (fun r m => r.1 = m ∧ NearProb f κ r.2 1) l ms → l.map Prod.fst = ms := by
      intro l ms h
      induction h with
      | nil => rfl
      | cons a _ ih => rw [List.map_cons, a.1, ih]
    exact e _ _ key
  have hbad := bad_sequences N ms.length hN P
  have hsplit : (N : ℝ) ^ ms.length ≤ ((univ.filter fun js : Fin ms.length → Fin N => (run js).measurements.map Prod.fst = ms).card : ℝ) +
      ((univ.filter fun js : Fin ms.length → Fin N => ∃ i, P (js i)).card : ℝ) := by
    have hu : (univ : Finset (Fin ms.length → Fin N)) ⊆ (univ.filter fun js => (run js).measurements.map Prod.fst = ms) ∪ univ.filter fun js => ∃ i, P (js i) := by
      intro js _
      rw [mem_union, mem_filter, mem_filter]
      by_cases hb : ∃ i, P (js i)
      · exact Or.inr ⟨mem_univ _, hb⟩
      · exact Or.inl ⟨mem_univ _, hgood js fun i hi => hb ⟨i, hi⟩⟩
    have := (card_le_card hu).trans (card_union_le _ _)
    rw [card_univ, Fintype.card_fun, Fintype.card_fin, Fintype.card_fin] at this
    exact_mod_cast this
  have hpow : (0 : ℝ) < (N : ℝ) ^ ms.length := by positivity
  have hq : (ms.length : ℝ) * ((univ.filter P).card / N) ≤ ms.length * (D.card * (2 * δ + 1 / N)) := by
    refine mul_le_mul_of_nonneg_left ?_ (by positivity)
    rw [div_le_iff₀ hN']
    refine hP.trans (le_of_eq ?_)
    field_simp
  unfold shareOf
  rw [le_div_iff₀ hpow]
  have hq' := mul_le_mul_of_nonneg_right hq hpow.le
  have e : (univ.filter fun js : Fin ms.length → Fin N => (run js).measurements.map Prod.fst = ms).card =
      (@Finset.filter _ (fun js : Fin ms.length → Fin N => (run js).measurements.map Prod.fst = ms) (fun a => Classical.propDecidable _) univ).card := by
    congr
  rw [← e]
  nlinarith

/-- C127, counted in `f64`: with the `2 ^ 53` draws of `rand::random::<f64>()`, under the conditions of `C127_f64`, for `J` measurements at least `1 - J·|D|·2^-28` of the
runs report exactly the certain outcomes. -/
theorem C127_share_f64 (A : binary64.Arith fl) {n : ℕ} {els : List (ElemP A.Num)} {x : ℕ} {D : Finset ℝ} {ms : List ℕ} {χ : Wave} {κ B : ℝ}
    (h : CertainRuns A n els x D ms χ (1 / 2 ^ 30) κ B) (h0 : 0 ∈ D) (hms : ms ≠ []) (d : ℕ → binary64.Fin) (hd : ∀ j, j < 2 ^ 53 → (d j).1 = (j : ℝ) / 2 ^ 53)
    (rnds : (Fin ms.length → Fin (2 ^ 53)) → ℕ → binary64.Part) (hr : ∀ js (i : Fin ms.length), rnds js i = some (d (js i)))
    (run : (Fin ms.length → Fin (2 ^ 53)) → StateP A.Num binary64.Part)
    (hrun : ∀ js, RunsP A.prec (fun c : A.Num => c) (fun c => c) n (rnds js) els
      ⟨(List.replicate (2 ^ n) 0).set x 1, List.replicate (2 ^ n) 0, []⟩ (run js)) :
    1 - ms.length * (D.card / 2 ^ 28) ≤ shareOf (2 ^ 53) ms.length (fun js => (run js).measurements.map Prod.fst = ms) := by
  have key := C127_share A (by norm_num) h h0 hms (2 ^ 53) (by norm_num) d (fun j hj => by rw [hd j hj, Nat.cast_pow, Nat.cast_ofNat]) rnds hr run hrun
  refine le_trans ?_ key
  refine sub_le_sub_left (mul_le_mul_of_nonneg_left ?_ (by positivity)) 1
  rw [div_eq_mul_inv]
  refine mul_le_mul_of_nonneg_left ?_ (by positivity)
  rw [Nat.cast_pow, Nat.cast_ofNat]
  norm_num

/-- C127, Bernstein and Vazirani, counted: at least `1 - 3·2^-28` of the runs report the hidden number; C123 gives `1 - 2^-24`. -/
theorem C127_bernstein_vazirani_share (A : binary64.Arith fl) (L : StdLib binary64) (hL : L.Accurate binary64.eps) {n : ℕ} (hn : 0 < n) {a : ℕ} (ha : a < 2 ^ n) {o : Prog}
    (ho : Computes n (fun u => decide (dot n u a % 2 = 1)) o) {out : List Reg × List ℕ} {s : LocalBuilder}
    (h : mainProg [n, 1] (queryActs o) LocalBuilder.default = .ok out s) (hs : s.n ≤ 10) (hg : circuitCost s.pipeline ≤ 64000)
    (c : List (List ℕ × ObjTypeP binary64)) (hm : List.Forall₂ Meant c s.pipeline) (hw : ∀ e ∈ c, e.2.Within 1)
    (d : ℕ → binary64.Fin) (hd : ∀ j, j < 2 ^ 53 → (d j).1 = (j : ℝ) / 2 ^ 53) :
    ∃ els : List (ElemP A.Num), c.mapM (elemP A L) = .ok (els.map elemOf) ∧
      ∀ (rnds : (Fin 1 → Fin (2 ^ 53)) → ℕ → binary64.Part) (_ : ∀ js (i : Fin 1), rnds js i = some (d (js i)))
        (run : (Fin 1 → Fin (2 ^ 53)) → StateP A.Num binary64.Part)
        (_ : ∀ js, RunsP A.prec (fun c : A.Num => c) (fun c => c) s.n (rnds js) els
          ⟨(List.replicate (2 ^ s.n) 0).set 0 1, List.replicate (2 ^ s.n) 0, []⟩ (run js)),
        1 - 3 / 2 ^ 28 ≤ shareOf (2 ^ 53) 1 (fun js => (run js).measurements.map Prod.fst = [a]) := by
  obtain ⟨els, χ, k1, k2⟩ := C127_bernstein_vazirani A L hL hn ha ho h hs hg c hm hw
  refine ⟨els, k1, fun rnds hr run hrun => ?_⟩
  have key := C127_share_f64 A (D := {0, 1 / 2, 1}) (ms := [a]) (by simpa using k2) (by simp) (by simp) d hd rnds hr run hrun
  have hc : (({0, 1 / 2, 1} : Finset ℝ).card : ℝ) ≤ 3 := by exact_mod_cast card_le_three
  refine le_trans ?_ key
  rw [List.length_singleton, Nat.cast_one, one_mul]
  linarith [div_le_div_of_nonneg_right hc (show (0 : ℝ) ≤ 2 ^ 28 by norm_num)]

/-- C127, the adder, counted: `v + w` in `f64` with all three registers measured. Over all triples of draws, at least `1 - 6·2^-28` of the runs report the clean carry, `v` and the
sum. -/
theorem C127_add_share (A : binary64.Arith fl) (L : StdLib binary64) (hL : L.Accurate binary64.eps) {n : ℕ} (hn : 0 < n) {v w : ℕ} (hv : v < 2 ^ n) (hw2 : w < 2 ^ (n + 1))
    {out : List Reg × List ℕ} {s : LocalBuilder}
    (h : mainProg [n, n, n + 1] [.run (.call .add), .measure 0, .measure 1, .measure 2] LocalBuilder.default = .ok out s)
    (hs : s.n ≤ 10) (hg : circuitCost s.pipeline ≤ 64000) (c : List (List ℕ × ObjTypeP binary64)) (hm : List.Forall₂ Meant c s.pipeline)
    (hw : ∀ e ∈ c, e.2.Within 1) (d : ℕ → binary64.Fin) (hd : ∀ j, j < 2 ^ 53 → (d j).1 = (j : ℝ) / 2 ^ 53) :
    ∃ (els : List (ElemP A.Num)) (x : ℕ), c.mapM (elemP A L) = .ok (els.map elemOf) ∧
      initialIndex s.n [(List.range' n n, v), (List.range' (n + n) (n + 1), w)] = some x ∧
      ∀ (rnds : (Fin 3 → Fin (2 ^ 53)) → ℕ → binary64.Part) (_ : ∀ js (i : Fin 3), rnds js i = some (d (js i)))
        (run : (Fin 3 → Fin (2 ^ 53)) → StateP A.Num binary64.Part)
        (_ : ∀ js, RunsP A.prec (fun c : A.Num => c) (fun c => c) s.n (rnds js) els
          ⟨(List.replicate (2 ^ s.n) 0).set x 1, List.replicate (2 ^ s.n) 0, []⟩ (run js)),
        1 - 6 / 2 ^ 28 ≤ shareOf (2 ^ 53) 3 (fun js => (run js).measurements.map Prod.fst = [0, v, (v + w) % 2 ^ (n + 1)]) := by
  obtain ⟨els, x, y, k1, k2, k3⟩ := C127_add A L hL hn hv hw2 h hs hg c hm hw
  refine ⟨els, x, k1, k2, fun rnds hr run hrun => ?_⟩
  have key := C127_share_f64 A (D := {0, 1}) (ms := [0, v, (v + w) % 2 ^ (n + 1)]) (by simpa using k3) (by simp) (by simp) d hd rnds hr run hrun
  have hc : (({0, 1} : Finset ℝ).card : ℝ) ≤ 2 := by exact_mod_cast card_le_two
  refine le_trans ?_ key
  have e : (([0, v, (v + w) % 2 ^ (n + 1)] : List ℕ).length : ℝ) = 3 := by simp
  rw [e]
  linarith [div_le_div_of_nonneg_right hc (show (0 : ℝ) ≤ 2 ^ 28 by norm_num)]

/-! ## examples -/

/-- `3 + 2 = 5`: circuits, draws and runs as in the theorem exist -/
example (A : binary64.Arith fl) (d : ℕ → binary64.Fin) (hd : ∀ j, j < 2 ^ 53 → (d j).1 = (j : ℝ) / 2 ^ 53) :
    ∃ (n : ℕ) (els : List (ElemP A.Num)) (x : ℕ) (run : (Fin 3 → Fin (2 ^ 53)) → StateP A.Num binary64.Part),
      (∀ js : Fin 3 → Fin (2 ^ 53), RunsP A.prec (fun c : A.Num => c) (fun c => c) n (fun k => some (d (js (Fin.ofNat 3 k)))) els
          ⟨(List.replicate (2 ^ n) 0).set x 1, List.replicate (2 ^ n) 0, []⟩ (run js)) ∧
        1 - 6 / 2 ^ 28 ≤ shareOf (2 ^ 53) 3 (fun js => (run js).measurements.map Prod.fst = [0, 3, 5]) := by
  have hT : ∀ a ∈ ([.run (.call .add), .measure 0, .measure 1, .measure 2] : List Act), a.Takes (blocks 0 [2, 2, 3]) := by
    intro a ha
    simp only [List.mem_cons, List.not_mem_nil, or_false] at ha
    rcases ha with rfl | rfl | rfl | rfl
    · exact ⟨rfl, List.cons_ne_nil _ _, rfl, rfl⟩
    · show 0 < 3; norm_num
    · show 1 < 3; norm_num
    · show 2 < 3; norm_num
  obtain ⟨s, c, h1, h2, h3, h4, h5⟩ := smallRun_ok (sizes := [2, 2, 3]) (by simp) hT (by krfl) A
  obtain ⟨els, x, k1, k2, k3⟩ := C127_add_share A (stdRounded A) (C122_accurate A) (n := 2) (v := 3) (w := 2) (by norm_num) (by norm_num) (by norm_num) h1 h2 h3 c h4 h5 d hd
  obtain ⟨b1, -⟩ := C123_bound s.n (circuitCost s.pipeline) h2 h3
  obtain ⟨els', x', l1, l2, l3, -⟩ := C125_programs A (C88_formats 2).2.2.1.1 (C88_formats 2).2.2.1.2 (stdRounded A) (C122_accurate A) (by simp) hT h1
    [(List.range' 2 2, 3), (List.range' (2 + 2) (2 + 1), 2)] (by simp [blocks]) b1 c h4 h5 (1 / 2 ^ 14) (by norm_num)
  obtain rfl : x = x' := Option.some.inj (k2.symm.trans l2)
  obtain rfl : els = els' := by
    have e : els.map elemOf = els'.map elemOf := Except.ok.inj (k1.symm.trans l1)
    refine List.map_injective_iff.mpr ?_ e
    rintro (a | a) (b | b) hab <;> simp_all [elemOf]
  choose run hrun using fun js : Fin 3 → Fin (2 ^ 53) => l3 fun k => some (d (js (Fin.ofNat 3 k)))
  refine ⟨s.n, els, x, run, hrun, k3 _ (fun js i => ?_) run hrun⟩
  have : Fin.ofNat 3 (i : ℕ) = i := by ext; simp [Nat.mod_eq_of_lt i.2]
  rw [this]

end Verif.Props
