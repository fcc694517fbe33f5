import Verif.Proofs.Iter
import Verif.Spec.Iter

namespace Verif
variable {K : Type}

/-! ### Function iterator -/

theorem testBit_rev (n x i : ℕ) : (rev n x).testBit i = if i < n then x.testBit (n - 1 - i) else false := by
  unfold rev
  split
  · rw [Nat.testBit_ofBits_lt _ _ (by omega)]
  · rw [Nat.testBit_ofBits_ge _ _ (by omega)]

theorem rev_lt (n x : ℕ) : rev n x < 2 ^ n := Nat.ofBits_lt_two_pow _

theorem flipBits_eq_rev (n x : ℕ) (h0 : 1 ≤ n) (h : n ≤ 64) : flipBits n x = some (rev n x) := by
  obtain ⟨y, hy, hb⟩ := flipBits_spec n x h0 h
  rw [hy]; congr 1
  apply Nat.eq_of_testBit_eq
  intro i
  rw [hb, testBit_rev]

theorem rev_rev (n x : ℕ) (h : x < 2 ^ n) : rev n (rev n x) = x := by
  apply Nat.eq_of_testBit_eq
  intro i
  rw [testBit_rev]
  split
  · rw [testBit_rev, if_pos (by omega)]; congr 1; omega
  · exact (Nat.testBit_lt_two_pow (lt_of_lt_of_le h (Nat.pow_le_pow_right (by norm_num) (by omega)))).symm

/-- the column of row `row` for the reversible map of `f` -/
def fnCol (inputN outputN : ℕ) (f : ℕ → ℕ) (row : ℕ) : ℕ :=
  (row / 2 ^ outputN) * 2 ^ outputN + ((row % 2 ^ outputN) ^^^ rev outputN (f (rev inputN (row / 2 ^ outputN))))

theorem xor_lt (a b n : ℕ) (ha : a < 2 ^ n) (hb : b < 2 ^ n) : a ^^^ b < 2 ^ n := Nat.xor_lt_two_pow ha hb

theorem drain_fn (row inputN outputN : ℕ) (f : ℕ → ℕ × K) (hi : 1 ≤ inputN) (hi' : inputN ≤ 64)
    (ho : 1 ≤ outputN) (ho' : outputN ≤ 64) :
    ∃ it, FnIter.new row inputN outputN f = some it ∧
      drain FnIter.next it =
        some ([(fnCol inputN outputN (fun x => (f x).1) row, (f (rev inputN (row / 2 ^ outputN))).2)], it) := by
  have hx : row >>> outputN = row / 2 ^ outputN := Nat.shiftRight_eq_div_pow row _
  have hy : row &&& ((1 <<< outputN) - 1) = row % 2 ^ outputN := by
    rw [Nat.one_shiftLeft, Nat.and_two_pow_sub_one_eq_mod]
  refine ⟨{ outputN := outputN, x := row / 2 ^ outputN,
            fxXorY := (row % 2 ^ outputN) ^^^ rev outputN (f (rev inputN (row / 2 ^ outputN))).1,
            theta := (f (rev inputN (row / 2 ^ outputN))).2, lastCol := none }, ?_, ?_⟩
  · simp [FnIter.new, hx, hy, flipBits_eq_rev _ _ hi hi', flipBits_eq_rev _ _ ho ho']
  · have hlt : (row % 2 ^ outputN) ^^^ rev outputN (f (rev inputN (row / 2 ^ outputN))).1 < 2 ^ outputN :=
      xor_lt _ _ _ (Nat.mod_lt _ (Nat.two_pow_pos _)) (rev_lt _ _)
    have hcol : ((row / 2 ^ outputN) <<< outputN) ||| ((row % 2 ^ outputN) ^^^ rev outputN (f (rev inputN (row / 2 ^ outputN))).1)
        = fnCol inputN outputN (fun x => (f x).1) row := by
      rw [← Nat.shiftLeft_add_eq_or_of_lt hlt, Nat.shiftLeft_eq]; rfl
    refine drain_step (s' := ⟨outputN, row / 2 ^ outputN,
            (row % 2 ^ outputN) ^^^ rev outputN (f (rev inputN (row / 2 ^ outputN))).1,
            (f (rev inputN (row / 2 ^ outputN))).2, some (fnCol inputN outputN (fun x => (f x).1) row)⟩) ?_ ?_
    · simp only [FnIter.next, hcol, Option.map_some]
    · apply drain_done
      simp [FnIter.next]

theorem fnCol_div (inputN outputN : ℕ) (f : ℕ → ℕ) (row : ℕ) :
    fnCol inputN outputN f row / 2 ^ outputN = row / 2 ^ outputN := by
  unfold fnCol
  have hlt : (row % 2 ^ outputN) ^^^ rev outputN (f (rev inputN (row / 2 ^ outputN))) < 2 ^ outputN :=
      xor_lt _ _ _ (Nat.mod_lt _ (Nat.two_pow_pos _)) (rev_lt _ _)
  rw [Nat.mul_comm, Nat.mul_add_div (Nat.two_pow_pos _), Nat.div_eq_of_lt hlt, Nat.add_zero]

theorem fnCol_mod (inputN outputN : ℕ) (f : ℕ → ℕ) (row : ℕ) :
    fnCol inputN outputN f row % 2 ^ outputN =
      (row % 2 ^ outputN) ^^^ rev outputN (f (rev inputN (row / 2 ^ outputN))) := by
  unfold fnCol
  have hlt : (row % 2 ^ outputN) ^^^ rev outputN (f (rev inputN (row / 2 ^ outputN))) < 2 ^ outputN :=
      xor_lt _ _ _ (Nat.mod_lt _ (Nat.two_pow_pos _)) (rev_lt _ _)
  rw [Nat.mul_comm, Nat.mul_add_mod, Nat.mod_eq_of_lt hlt]

theorem fnCol_fnCol (inputN outputN : ℕ) (f : ℕ → ℕ) (row : ℕ) :
    fnCol inputN outputN f (fnCol inputN outputN f row) = row := by
  rw [fnCol.eq_def inputN outputN f (fnCol inputN outputN f row), fnCol_div, fnCol_mod, Nat.xor_assoc, Nat.xor_self, Nat.xor_zero, Nat.mul_comm, Nat.div_add_mod]

/-! ### Odometer -/

/-- combinations from position `ps` on -/
def combosFrom {α : Type} : List ℕ → List (List α) → List (List α)
  | [], [] => [[]]
  | p :: ps, l :: ls =>
    match l[p]? with
    | none => []
    | some a => (combosFrom ps ls).map (a :: ·) ++ (l.drop (p + 1)).flatMap (fun a => (combos ls).map (a :: ·))
  | _, _ => []

/-- current choice -/
def choice {α : Type} : List ℕ → List (List α) → Option (List α)
  | [], [] => some []
  | p :: ps, l :: ls =>
    match l[p]?, choice ps ls with
    | some a, some c => some (a :: c)
    | _, _ => none
  | _, _ => none

/-- increment seen from the front -/
def incr {α : Type} : List ℕ → List (List α) → List ℕ × Bool
  | p :: ps, l :: ls =>
    let r := incr ps ls
    if r.2 then (p :: r.1, true)
    else if p + 1 = l.length then (0 :: r.1, false) else ((p + 1) :: r.1, true)
  | _, _ => ([], false)

/-- positions are valid -/
def PosOk {α : Type} : List ℕ → List (List α) → Prop
  | [], [] => True
  | p :: ps, l :: ls => p < l.length ∧ PosOk ps ls
  | _, _ => False

theorem combosFrom_zero {α : Type} (ls : List (List α)) (h : ∀ l ∈ ls, l ≠ []) :
    combosFrom (ls.map fun _ => 0) ls = combos ls := by
  induction ls with
  | nil => rfl
  | cons l ls ih =>
    cases l with
    | nil => exact absurd rfl (h [] (by simp))
    | cons a l =>
      simp only [List.map_cons, combosFrom, List.getElem?_cons_zero, ih (fun l hl => h l (by simp [hl])), combos,
        List.drop_succ_cons, List.drop_zero, List.flatMap_cons]

theorem combosFrom_step {α : Type} (ps : List ℕ) (ls : List (List α)) (h : PosOk ps ls) :
    ∃ c, choice ps ls = some c ∧
      combosFrom ps ls = c :: (if (incr ps ls).2 then combosFrom (incr ps ls).1 ls else []) ∧
      PosOk (incr ps ls).1 ls ∧
      ((incr ps ls).2 = false → (incr ps ls).1 = ls.map fun _ => 0) := by
  induction ls generalizing ps with
  | nil =>
    cases ps with
    | nil => exact ⟨[], rfl, by simp [combosFrom, incr], trivial, by simp [incr]⟩
    | cons p ps => exact absurd h (by simp [PosOk])
  | cons l ls ih =>
    cases ps with
    | nil => exact absurd h (by simp [PosOk])
    | cons p ps =>
      obtain ⟨hp, hps⟩ := h
      obtain ⟨c, h1, h2, h3, h4⟩ := ih ps hps
      have hl : l[p]? = some l[p] := by simp [hp]
      refine ⟨l[p] :: c, by simp [choice, hl, h1], ?_, ?_, ?_⟩
      · simp only [combosFrom, hl, incr]
        by_cases hb : (incr ps ls).2
        · simp only [hb, if_true, combosFrom, hl]
          rw [h2]; simp [hb]
        · simp only [hb, if_false, Bool.false_eq_true]
          rw [h2]
          by_cases hlast : p + 1 = l.length
          · simp [hlast, hb]
          · have hlt : p + 1 < l.length := by omega
            have hl' : l[p+1]? = some l[p+1] := by simp [hlt]
            simp only [hlast, if_false, if_true, combosFrom, hl', hb, Bool.false_eq_true]
            rw [h4 (by simpa using hb), combosFrom_zero]
            · rw [List.drop_eq_getElem_cons hlt, List.flatMap_cons]
              rfl
            · intro l' hl'
              have : ∀ (ps : List ℕ) (ls : List (List α)), PosOk ps ls → ∀ l ∈ ls, l ≠ [] := by
                intro ps ls
                induction ls generalizing ps with
                | nil => intro _ l hl; simp at hl
                | cons l ls ih' =>
                  intro hok x hx
                  cases ps with
                  | nil => exact absurd hok (by simp [PosOk])
                  | cons p ps =>
                    rcases List.mem_cons.mp hx with rfl | hx
                    · intro e; rw [e] at hok; exact absurd hok.1 (by simp)
                    · exact ih' ps hok.2 x hx
              exact this ps ls hps l' hl'
      · simp only [incr]
        split
        · exact ⟨hp, h3⟩
        · split
          · exact ⟨by omega, h3⟩
          · exact ⟨by omega, h3⟩
      · simp only [incr]
        split
        · simp
        · rename_i hb
          split
          · intro _; simp [h4 (by simpa using hb)]
          · simp

theorem multiIncr_append (xs : List (ℕ × List (ℕ × K))) (y : ℕ × List (ℕ × K)) :
    multiIncr (xs ++ [y]) =
      if (multiIncr xs).2 then ((multiIncr xs).1 ++ [y.1], true)
      else if y.1 + 1 = y.2.length then ((multiIncr xs).1 ++ [0], false)
      else ((multiIncr xs).1 ++ [y.1 + 1], true) := by
  induction xs with
  | nil =>
    obtain ⟨p, l⟩ := y
    by_cases h : p + 1 = l.length <;> simp [multiIncr, h]
  | cons x xs ih =>
    obtain ⟨p, l⟩ := x
    rw [List.cons_append, multiIncr, multiIncr, ih]
    by_cases h : p + 1 = l.length
    · simp only [h, if_true]
      by_cases hb : (multiIncr xs).2
      · simp [hb]
      · by_cases hy : y.1 + 1 = y.2.length <;> simp [hb, hy]
    · simp [h]

theorem multiIncr_reverse (ps : List ℕ) (ls : List (List (ℕ × K))) (h : ps.length = ls.length) :
    ((multiIncr (ps.reverse.zip ls.reverse)).1.reverse, (multiIncr (ps.reverse.zip ls.reverse)).2) = incr ps ls := by
  induction ls generalizing ps with
  | nil =>
    cases ps with
    | nil => simp [multiIncr, incr]
    | cons p ps => simp at h
  | cons l ls ih =>
    cases ps with
    | nil => simp at h
    | cons p ps =>
      have hlen : ps.length = ls.length := by simpa using h
      have := ih ps hlen
      rw [List.reverse_cons, List.reverse_cons, List.zip_append (by simp [hlen])]
      simp only [List.zip_cons_cons, List.zip_nil_right]
      rw [multiIncr_append, incr, ← this]
      by_cases hb : (multiIncr (ps.reverse.zip ls.reverse)).2
      · simp [hb]
      · by_cases hy : p + 1 = l.length <;> simp [hb, hy]

section multi
variable [Mul K] [One K]

/-- concatenated column and product value of a choice -/
def combine : List ℕ → List (ℕ × K) → ℕ × K → ℕ × K
  | n :: ns, e :: es, acc => combine ns es ((acc.1 <<< n) ||| e.1, acc.2 * e.2)
  | _, _, acc => acc

theorem multiItem_choice (ps ns : List ℕ) (ls : List (List (ℕ × K))) (c : List (ℕ × K)) (acc : ℕ × K)
    (hn : ns.length = ls.length) (h : choice ps ls = some c) :
    multiItem ((ps.zip ns).zip ls) acc = some (combine ns c acc) := by
  induction ls generalizing ps ns c acc with
  | nil =>
    cases ps with
    | nil =>
      have : ns = [] := by simpa using hn
      subst this
      simp [choice] at h; subst h
      simp [multiItem, combine]
    | cons p ps => simp [choice] at h
  | cons l ls ih =>
    cases ps with
    | nil => simp [choice] at h
    | cons p ps =>
      cases ns with
      | nil => simp at hn
      | cons n ns =>
        simp only [choice] at h
        match hl : l[p]?, hc : choice ps ls with
        | some a, some c' =>
          simp [hl, hc] at h; subst h
          simp only [List.zip_cons_cons, multiItem, hl, combine]
          exact ih ps ns c' _ (by simpa using hn) hc
        | none, _ => simp [hl] at h
        | some a, none => simp [hl, hc] at h

theorem PosOk_length {α : Type} (ps : List ℕ) (ls : List (List α)) (h : PosOk ps ls) : ps.length = ls.length := by
  induction ls generalizing ps with
  | nil => cases ps with | nil => rfl | cons p ps => exact absurd h (by simp [PosOk])
  | cons l ls ih => cases ps with
    | nil => exact absurd h (by simp [PosOk])
    | cons p ps => simp [ih ps h.2]

theorem drain_multi (ns : List ℕ) (ls : List (List (ℕ × K))) (hn : ns.length = ls.length) (ps : List ℕ)
    (h : PosOk ps ls) :
    drain MultiIter.next { iterNs := ns, iterOutputs := ls, currPoss := ps, overflow := false } =
      some ((combosFrom ps ls).map (fun c => combine ns c (0, 1)),
        { iterNs := ns, iterOutputs := ls, currPoss := ls.map (fun _ => 0), overflow := false }) := by
  obtain ⟨c, h1, h2, h3, h4⟩ := combosFrom_step ps ls h
  have hinc := multiIncr_reverse ps ls (PosOk_length ps ls h)
  have hi1 := congrArg Prod.fst hinc
  have hi2 := congrArg Prod.snd hinc
  simp only at hi1 hi2
  have hnext : MultiIter.next { iterNs := ns, iterOutputs := ls, currPoss := ps, overflow := false } =
      some (some (combine ns c (0, 1)),
        { iterNs := ns, iterOutputs := ls, currPoss := (incr ps ls).1, overflow := !(incr ps ls).2 }) := by
    simp only [MultiIter.next, Bool.false_eq_true, if_false, multiItem_choice ps ns ls c (0, 1) hn h1, hi1, hi2]
  rw [h2, List.map_cons]
  refine drain_step hnext ?_
  by_cases hb : (incr ps ls).2
  · have := drain_multi ns ls hn (incr ps ls).1 h3
    simp only [hb, Bool.not_true, if_true]
    exact this
  · have hb' : (incr ps ls).2 = false := by simpa using hb
    simp only [hb', Bool.not_false, Bool.false_eq_true, if_false, List.map_nil]
    rw [h4 hb']
    apply drain_done
    simp [MultiIter.next]
termination_by (combosFrom ps ls).length
decreasing_by
  rw [h2]
  simp [hb]

theorem drain_multi_new (ns : List ℕ) (ls : List (List (ℕ × K))) (hn : ns.length = ls.length)
    (hne : ∀ l ∈ ls, l ≠ []) :
    drain MultiIter.next (MultiIter.new ns ls) =
      some ((combos ls).map (fun c => combine ns c (0, 1)), MultiIter.new ns ls) := by
  have hz : ns.map (fun _ => 0) = ls.map (fun _ => (0 : ℕ)) := by
    rw [List.map_const', List.map_const', hn]
  have hok : PosOk (ls.map (fun _ => (0 : ℕ))) ls := by
    clear hn hz
    induction ls with
    | nil => trivial
    | cons l ls ih =>
      exact ⟨List.length_pos_iff.mpr (hne l (by simp)), ih (fun l hl => hne l (by simp [hl]))⟩
  have := drain_multi ns ls hn _ hok
  rw [combosFrom_zero ls hne] at this
  simp only [MultiIter.new, hz]
  exact this

theorem combine_eq (K : Type) [Monoid K] (ns : List ℕ) (es : List (ℕ × K)) (acc : ℕ × K)
    (hn : ns.length = es.length) (h : ∀ p ∈ ns.zip es, p.2.1 < 2 ^ p.1) :
    combine ns es acc = (acc.1 * 2 ^ ns.sum + concatCol ns es, acc.2 * (es.map Prod.snd).prod) := by
  induction ns generalizing es acc with
  | nil =>
    have : es = [] := by cases es with | nil => rfl | cons _ _ => simp at hn
    subst this
    simp [combine, concatCol]
  | cons n ns ih =>
    cases es with
    | nil => simp at hn
    | cons e es =>
      have he : e.1 < 2 ^ n := h (n, e) (by simp)
      rw [combine, ih es _ (by simpa using hn) (fun p hp => h p (by simp [hp]))]
      rw [← Nat.shiftLeft_add_eq_or_of_lt he, Nat.shiftLeft_eq]
      simp only [concatCol, List.sum_cons, List.map_cons, List.prod_cons, mul_assoc, Prod.mk.injEq, and_true]
      rw [Nat.pow_add]; ring

theorem mem_combos {α : Type} (ls : List (List α)) (c : List α) :
    c ∈ combos ls ↔ List.Forall₂ (fun a l => a ∈ l) c ls := by
  induction ls generalizing c with
  | nil => simp [combos]
  | cons l ls ih =>
    simp only [combos, List.mem_flatMap, List.mem_map]
    constructor
    · rintro ⟨a, ha, c', hc', rfl⟩
      exact List.Forall₂.cons ha ((ih c').mp hc')
    · intro h
      cases h with
      | cons h1 h2 => exact ⟨_, h1, _, (ih _).mpr h2, rfl⟩

theorem length_combos {α : Type} (ls : List (List α)) : (combos ls).length = (ls.map List.length).prod := by
  induction ls with
  | nil => rfl
  | cons l ls ih =>
    simp [combos, List.length_flatMap, ih]

end multi

end Verif
