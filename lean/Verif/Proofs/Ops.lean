import Verif.Proofs.Embed

namespace Verif
open Finset MatrixOp

variable {K : Type}

/-! ### Dense transpose -/

theorem flat_lt (N r c : ℕ) (hr : r < N) (hc : c < N) : r * N + c < N * N := by
  calc r * N + c < r * N + N := by omega
    _ = (r + 1) * N := by ring
    _ ≤ N * N := Nat.mul_le_mul_right _ hr

theorem flat_inj {N r c r' c' : ℕ} (hc : c < N) (hc' : c' < N) (h : r * N + c = r' * N + c') : r = r' ∧ c = c' := by
  have hN : 0 < N := by omega
  have h1 : (r * N + c) / N = r := by
    rw [Nat.mul_comm, Nat.mul_add_div hN, Nat.div_eq_of_lt hc, Nat.add_zero]
  have h2 : (r' * N + c') / N = r' := by
    rw [Nat.mul_comm, Nat.mul_add_div hN, Nat.div_eq_of_lt hc', Nat.add_zero]
  have : r = r' := by rw [← h1, ← h2, h]
  subst this
  exact ⟨rfl, by omega⟩

theorem swapAt_some (l : List K) (i j : ℕ) (hi : i < l.length) (hj : j < l.length) :
    swapAt l i j = some ((l.set i l[j]).set j l[i]) := by
  simp [swapAt, hi, hj]

theorem transpose_fold (n : ℕ) (mat : List K) (hlen : mat.length = 2 ^ n * 2 ^ n) (ps : List (ℕ × ℕ))
    (hps : ∀ p ∈ ps, p.2 < p.1 ∧ p.1 < 2 ^ n) (hnd : ps.Nodup) :
    ∃ m, ps.foldlM (fun m p => swapAt m (getFlatIndex n p.1 p.2) (getFlatIndex n p.2 p.1)) mat = some m ∧
      m.length = mat.length ∧
      ∀ r c, r < 2 ^ n → c < 2 ^ n → m[r * 2 ^ n + c]? =
        if (r, c) ∈ ps ∨ (c, r) ∈ ps then mat[c * 2 ^ n + r]? else mat[r * 2 ^ n + c]? := by
  induction ps using List.reverseRecOn with
  | nil => exact ⟨mat, rfl, rfl, by simp⟩
  | append_singleton ps p ih =>
    obtain ⟨m, h1, h2, h3⟩ := ih (fun q hq => hps q (by simp [hq])) (List.nodup_append.mp hnd).1
    have hp : p ∉ ps := by
      intro h
      exact (List.nodup_append.mp hnd).2.2 p h p (by simp) rfl
    obtain ⟨a, b⟩ := p
    have ⟨hab, ha⟩ := hps (a, b) (by simp)
    simp only at hab ha
    have hb : b < 2 ^ n := by omega
    have hfa := flat_lt _ _ _ ha hb
    have hfb := flat_lt _ _ _ hb ha
    refine ⟨(m.set (a * 2 ^ n + b) (m[b * 2 ^ n + a]'(by omega))).set (b * 2 ^ n + a) (m[a * 2 ^ n + b]'(by omega)),
      ?_, by simp [h2], ?_⟩
    · rw [List.foldlM_append, h1]
      simp only [Option.bind_eq_bind, Option.bind_some, List.foldlM_cons, getFlatIndex, Nat.one_shiftLeft]
      rw [swapAt_some m _ _ (by omega) (by omega)]
      rfl
    · intro r c hr hc
      have hba : (b, a) ∉ ps := by
        intro h
        have := hps (b, a) (by simp [h])
        simp only at this
        omega
      have e1 := h3 a b ha hb
      have e2 := h3 b a hb ha
      rw [if_neg (by simp [hp, hba])] at e1 e2
      rw [List.getElem?_set, List.getElem?_set]
      by_cases c1 : b * 2 ^ n + a = r * 2 ^ n + c
      · obtain ⟨rfl, rfl⟩ := flat_inj ha hc c1
        rw [if_pos rfl, if_pos (by simp [h2]; omega), if_pos (by simp), ← e1, List.getElem?_eq_getElem]
      · rw [if_neg c1]
        by_cases c2 : a * 2 ^ n + b = r * 2 ^ n + c
        · obtain ⟨rfl, rfl⟩ := flat_inj hb hc c2
          rw [if_pos rfl, if_pos (by omega), if_pos (by simp), ← e2, List.getElem?_eq_getElem]
        · rw [if_neg c2, h3 r c hr hc]
          have n1 : (r, c) ≠ (a, b) := by
            intro h; cases h; exact c2 rfl
          have n2 : (c, r) ≠ (a, b) := by
            intro h; cases h; exact c1 rfl
          simp only [List.mem_append, List.mem_singleton, n1, n2, or_false]

theorem transposeDense_spec (n : ℕ) (mat : List K) (hlen : mat.length = 2 ^ n * 2 ^ n) :
    ∃ m, transposeDense n mat = some m ∧ m.length = mat.length ∧
      ∀ r c, r < 2 ^ n → c < 2 ^ n → m[r * 2 ^ n + c]? = mat[c * 2 ^ n + r]? := by
  have hmem : ∀ a b : ℕ, (a, b) ∈ ((List.range (1 <<< n)).flatMap fun row => (List.range row).map fun col => (row, col)) ↔
      b < a ∧ a < 2 ^ n := by
    intro a b
    simp only [Nat.one_shiftLeft, List.mem_flatMap, List.mem_range, List.mem_map, Prod.mk.injEq]
    constructor
    · rintro ⟨r, hr, c, hc, rfl, rfl⟩; exact ⟨hc, hr⟩
    · rintro ⟨h1, h2⟩; exact ⟨a, h2, b, h1, rfl, rfl⟩
  obtain ⟨m, h1, h2, h3⟩ := transpose_fold n mat hlen _ (fun p hp => (hmem p.1 p.2).mp hp) (by
    rw [List.nodup_flatMap]
    refine ⟨fun r _ => ?_, ?_⟩
    · exact (List.nodup_range (n := r)).map (fun a b h => by simpa using h)
    · apply List.Pairwise.imp _ (List.nodup_range (n := 1 <<< n))
      intro a b hab
      simp only [Function.onFun, List.disjoint_left, List.mem_map, List.mem_range]
      rintro p ⟨c, _, rfl⟩ ⟨d, _, h⟩
      simp at h
      exact hab h.1.symm)
  refine ⟨m, h1, h2, ?_⟩
  intro r c hr hc
  rw [h3 r c hr hc]
  split
  · rfl
  · rename_i h
    rw [hmem, hmem] at h
    have : r = c := by omega
    rw [this]

/-! ### Sparse transpose -/

theorem pushCols_spec (pushes : List (ℕ × (ℕ × K))) (N : ℕ) (h : ∀ e ∈ pushes, e.1 < N) :
    ∃ cols, pushes.foldlM pushCol (List.replicate N []) = some cols ∧ cols.length = N ∧
      ∀ c, c < N → cols[c]? = some ((pushes.filter (fun e => e.1 == c)).map Prod.snd) := by
  induction pushes using List.reverseRecOn with
  | nil => exact ⟨_, rfl, by simp, fun c hc => by simp [hc]⟩
  | append_singleton ps e ih =>
    obtain ⟨cols, h1, h2, h3⟩ := ih (fun e he => h e (by simp [he]))
    have he := h e (by simp)
    refine ⟨cols.set e.1 ((ps.filter (fun x => x.1 == e.1)).map Prod.snd ++ [e.2]), ?_, by simp [h2], ?_⟩
    · rw [List.foldlM_append, h1]
      simp [pushCol, h3 e.1 he]
    · intro c hc
      rw [List.getElem?_set]
      by_cases hce : e.1 = c
      · subst hce
        simp [h2, he]
      · rw [if_neg hce, h3 c hc]
        simp [hce]

variable [Semiring K]

/-- the entry at (row, col) of sparse data -/
def sparseEntry (mat : List (List (ℕ × K))) (r c : ℕ) : K :=
  ((((mat[r]?).getD []).filter (fun e => e.1 == c)).map Prod.snd).sum

theorem flatten_entry (mat : List (List (ℕ × K))) (r c k : ℕ) :
    ((((mat.zipIdx k).flatMap fun p => p.1.map fun e => (e.1, (p.2, e.2))).filter
        (fun e => e.1 == c && e.2.1 == r)).map (fun e => e.2.2)).sum =
      if r < k then 0 else sparseEntry mat (r - k) c := by
  induction mat generalizing k with
  | nil => simp [sparseEntry]
  | cons row mat ih =>
    rw [List.zipIdx_cons, List.flatMap_cons, List.filter_append, List.map_append, List.sum_append, ih]
    simp only [List.filter_map, List.map_map]
    by_cases h1 : r < k
    · have h2 : r < k + 1 := by omega
      rw [if_pos h1, if_pos h2]
      have : (row.filter ((fun e : ℕ × (ℕ × K) => e.1 == c && e.2.1 == r) ∘ fun e => (e.1, (k, e.2)))) = [] := by
        rw [List.filter_eq_nil_iff]
        intro a _
        simp; omega
      simp [this]
    · rw [if_neg h1]
      by_cases h2 : r = k
      · subst h2
        rw [if_pos (by omega)]
        simp only [sparseEntry, Nat.sub_self, List.getElem?_cons_zero, Option.getD_some, add_zero]
        congr 1
        have : (row.filter ((fun e : ℕ × (ℕ × K) => e.1 == c && e.2.1 == r) ∘ fun e => (e.1, (r, e.2)))) =
            row.filter (fun e => e.1 == c) := by
          apply List.filter_congr
          intro a _
          simp
        rw [this]
        rfl
      · have : (row.filter ((fun e : ℕ × (ℕ × K) => e.1 == c && e.2.1 == r) ∘ fun e => (e.1, (k, e.2)))) = [] := by
          rw [List.filter_eq_nil_iff]
          intro a _
          simp; intro _; omega
        rw [if_neg (by omega), this]
        simp only [List.map_nil, List.sum_nil, zero_add, sparseEntry]
        rw [show r - k = (r - (k + 1)) + 1 by omega, List.getElem?_cons_succ]

theorem mem_flattenSparse (mat : List (List (ℕ × K))) (e : ℕ × (ℕ × K)) (h : e ∈ flattenSparse mat) :
    e.2.1 < mat.length ∧ ∃ row ∈ mat, (e.1, e.2.2) ∈ row := by
  simp only [flattenSparse, List.mem_flatMap, List.mem_map] at h
  obtain ⟨⟨row, i⟩, hp, a, ha, rfl⟩ := h
  rw [List.mem_zipIdx_iff_getElem?] at hp
  obtain ⟨hlt, he⟩ := List.getElem?_eq_some_iff.mp hp
  simp only at ha hlt he ⊢
  exact ⟨hlt, row, by rw [← he]; exact List.getElem_mem _, ha⟩

theorem transposeSparse_spec (mat : List (List (ℕ × K))) (N : ℕ) (hN : mat.length = N)
    (hcol : ∀ row ∈ mat, ∀ e ∈ row, e.1 < N) (pushes : List (ℕ × (ℕ × K)))
    (hp : pushes.Perm (flattenSparse mat)) :
    ∃ m, transposeSparse mat pushes = some m ∧ m.length = N ∧ (∀ row ∈ m, ∀ e ∈ row, e.1 < N) ∧
      (∀ row ∈ m, (row.map Prod.fst).Pairwise (· ≤ ·)) ∧
      ∀ r c, r < N → c < N → sparseEntry m r c = sparseEntry mat c r := by
  have hpush : ∀ e ∈ pushes, e.1 < N ∧ e.2.1 < N := by
    intro e he
    obtain ⟨h1, row, h2, h3⟩ := mem_flattenSparse mat e (hp.mem_iff.mp he)
    exact ⟨hcol row h2 _ h3, by omega⟩
  obtain ⟨cols, h1, h2, h3⟩ := pushCols_spec pushes N (fun e he => (hpush e he).1)
  refine ⟨cols.map fun v => v.mergeSort fun a b => decide (a.1 ≤ b.1), ?_, by simp [h2], ?_, ?_, ?_⟩
  · simp [transposeSparse, hN, h1]
  · intro row hrow e he
    rw [List.mem_map] at hrow
    obtain ⟨v, hv, rfl⟩ := hrow
    rw [List.mem_mergeSort] at he
    obtain ⟨c, hc, rfl⟩ := List.mem_iff_getElem.mp hv
    have := h3 c (by omega)
    rw [List.getElem?_eq_getElem hc] at this
    rw [Option.some.inj this, List.mem_map] at he
    obtain ⟨x, hx, rfl⟩ := he
    exact (hpush x (List.mem_filter.mp hx).1).2
  · intro row hrow
    rw [List.mem_map] at hrow
    obtain ⟨v, hv, rfl⟩ := hrow
    rw [List.pairwise_map]
    have := List.pairwise_mergeSort (le := fun (a b : ℕ × K) => decide (a.1 ≤ b.1))
      (by intro a b c; simp; omega) (by intro a b; simp; omega) v
    exact this.imp (by intro a b; simp)
  · intro r c hr hc
    unfold sparseEntry
    rw [List.getElem?_map, h3 r hr]
    simp only [Option.map_some, Option.getD_some]
    have e1 := (((List.mergeSort_perm ((pushes.filter (fun e => e.1 == r)).map Prod.snd)
      (fun a b => decide (a.1 ≤ b.1))).filter (fun e => e.1 == c)).map Prod.snd).sum_eq
    rw [e1]
    rw [List.filter_map, List.map_map, List.filter_filter]
    have e2 := ((hp.filter (fun e => e.1 == r && e.2.1 == c)).map (fun e => e.2.2)).sum_eq
    have e3 := flatten_entry mat c r 0
    simp only [Nat.not_lt_zero, if_false, Nat.sub_zero] at e3
    change _ = sparseEntry mat c r
    rw [← e3]
    change _ = (((flattenSparse mat).filter _).map _).sum
    rw [← e2]
    congr 2
    apply List.filter_congr
    intro a _
    simp [Bool.and_comm]

/-! ### Whole ops -/

theorem ctrlMat_transpose (nc no : ℕ) (M M' : ℕ → ℕ → K)
    (h : ∀ r c, r < 2 ^ no → c < 2 ^ no → M' r c = M c r) (r c : ℕ) :
    ctrlMat nc no M' r c = ctrlMat nc no M c r := by
  unfold ctrlMat
  by_cases h1 : ∀ i, i < nc → r.testBit (no + i) = true
  · by_cases h2 : ∀ i, i < nc → c.testBit (no + i) = true
    · rw [if_pos h1, if_pos h2, if_pos h2, if_pos h1,
        h _ _ (Nat.mod_lt _ (Nat.two_pow_pos _)) (Nat.mod_lt _ (Nat.two_pow_pos _))]
    · rw [if_pos h1, if_neg h2, if_neg h2, if_neg]
      rintro rfl; exact h2 h1
  · by_cases h2 : ∀ i, i < nc → c.testBit (no + i) = true
    · rw [if_neg h1, if_pos h2, if_neg h1, if_neg]
      rintro rfl; exact h1 h2
    · rw [if_neg h1, if_neg h2]
      by_cases e : r = c
      · rw [if_pos e, if_pos e.symm]
      · rw [if_neg e, if_neg (Ne.symm e)]

theorem transposeOp_spec (op : MatrixOp K) (hwf : op.WF) :
    ∃ op', transposeOp op = some op' ∧ op'.WF ∧ op'.indices = op.indices ∧
      ∀ r c, r < 2 ^ op.indices.length → c < 2 ^ op.indices.length → opMat op' r c = opMat op c r := by
  induction op with
  | matrix idx data =>
    obtain ⟨m, h1, h2, h3⟩ := transposeDense_spec idx.length data hwf
    refine ⟨.matrix idx m, by simp [transposeOp, h1], by simp [MatrixOp.WF, h2]; exact hwf, rfl, ?_⟩
    intro r c hr hc
    simp only [opMat, h3 r c hr hc]
  | sparse idx rows =>
    obtain ⟨m, h1, h2, h3, _, h4⟩ := transposeSparse_spec rows (2 ^ idx.length) hwf.1 hwf.2 _ (List.Perm.refl _)
    exact ⟨.sparse idx m, by simp [transposeOp, h1], ⟨h2, h3⟩, rfl, h4⟩
  | swap a idx =>
    refine ⟨.swap a idx, rfl, hwf, rfl, ?_⟩
    intro r c hr hc
    simp only [opMat]
    congr 1
    apply propext
    constructor
    · intro h i hi
      exact ⟨(h i hi).2.symm, (h i hi).1.symm⟩
    · intro h i hi
      exact ⟨(h i hi).2.symm, (h i hi).1.symm⟩
  | control nc idx op ih =>
    obtain ⟨hnc, hwf', hl⟩ := hwf
    obtain ⟨op', h1, h2, h3, h4⟩ := ih hwf'
    refine ⟨.control nc idx op', by simp [transposeOp, h1], ⟨hnc, h2, by rw [h3]; exact hl⟩, rfl, ?_⟩
    intro r c _ _
    simp only [opMat]
    rw [hl] at h4
    exact ctrlMat_transpose nc _ _ _ h4 r c

theorem conjOp_wf [StarRing K] (op : MatrixOp K) (hwf : op.WF) : (conjOp op).WF := by
  induction op with
  | matrix idx data => simpa [conjOp, MatrixOp.WF] using hwf
  | sparse idx rows =>
    refine ⟨by simpa [conjOp] using hwf.1, ?_⟩
    intro row hrow e he
    simp only [List.mem_map] at hrow
    obtain ⟨v, hv, rfl⟩ := hrow
    rw [List.mem_map] at he
    obtain ⟨x, hx, rfl⟩ := he
    exact hwf.2 v hv x hx
  | swap a idx => exact hwf
  | control nc idx op ih =>
    refine ⟨hwf.1, ih hwf.2.1, ?_⟩
    rw [← hwf.2.2]
    cases op <;> rfl

omit [Semiring K] in
theorem conjOp_indices [Star K] (op : MatrixOp K) : (conjOp op).indices = op.indices := by
  cases op <;> rfl

theorem star_list_sum [StarRing K] (l : List K) : star l.sum = (l.map star).sum := by
  induction l with
  | nil => simp
  | cons a l ih => simp [ih]

theorem conjOp_spec [StarRing K] (op : MatrixOp K) (r c : ℕ) : opMat (conjOp op) r c = star (opMat op r c) := by
  induction op generalizing r c with
  | matrix idx data =>
    simp only [conjOp, opMat, List.getElem?_map]
    cases data[r * 2 ^ idx.length + c]? <;> simp
  | sparse idx rows =>
    simp only [conjOp, opMat, List.getElem?_map, star_list_sum, List.map_map]
    cases rows[r]? with
    | none => simp
    | some row =>
      simp only [Option.map_some, Option.getD_some, List.filter_map, List.map_map]
      rfl
  | swap a idx =>
    simp only [conjOp, opMat]
    split <;> simp
  | control nc idx op ih =>
    simp only [conjOp, opMat, ctrlMat, ih]
    repeat' split
    all_goals simp

theorem invertOp_spec [StarRing K] (op : MatrixOp K) (hwf : op.WF) :
    ∃ op', invertOp op = some op' ∧ op'.WF ∧ op'.indices = op.indices ∧
      ∀ r c, r < 2 ^ op.indices.length → c < 2 ^ op.indices.length → opMat op' r c = star (opMat op c r) := by
  obtain ⟨op', h1, h2, h3, h4⟩ := transposeOp_spec op hwf
  exact ⟨conjOp op', by simp [invertOp, h1], conjOp_wf op' h2, by rw [conjOp_indices, h3],
    fun r c hr hc => by rw [conjOp_spec, h4 r c hr hc]⟩

/-- An embedded unitary is unitary. -/
theorem embed_unitary [DecidableEq K] [StarRing K] (n : ℕ) (idx : List ℕ) (hn : idx.Nodup) (hidx : ∀ i ∈ idx, i < n)
    (M : ℕ → ℕ → K) (h : IsUnitary idx.length M) : IsUnitary n (embed n idx M) := by
  intro r c hr hc
  have := embed_mul n idx hn hidx (fun i j => star (M j i)) M r c hr
  rw [← embed_one n idx hn hidx r c hr hc, ← embed_congr n idx _ _ (fun i j hi hj => h i j hi hj), ← this]
  apply sum_congr rfl
  intro s _
  rw [← embed_star, embed_swap n idx (fun i j => star (M i j))]

/-- controlled unitaries are unitary -/
theorem ctrlMat_unitary [StarRing K] (nc no : ℕ) (M : ℕ → ℕ → K) (h : IsUnitary no M) :
    IsUnitary (nc + no) (ctrlMat nc no M) := by
  intro r c hr hc
  have hlow : ∀ x, x < 2 ^ (nc + no) → (∀ i, i < nc → x.testBit (no + i) = true) →
      x = (2 ^ (nc + no) - 2 ^ no) + x % 2 ^ no := by
    intro x hx hon
    have h1 := (allOnes_iff nc no x hx).mp hon
    have h2 := sub_thr_mod nc no x hx h1
    omega
  have hpow : 2 ^ no ≤ 2 ^ (nc + no) := Nat.pow_le_pow_right (by norm_num) (by omega)
  by_cases h1 : ∀ i, i < nc → r.testBit (no + i) = true
  · by_cases h2 : ∀ i, i < nc → c.testBit (no + i) = true
    · have hrc : r = c ↔ r % 2 ^ no = c % 2 ^ no := by
        constructor
        · rintro rfl; rfl
        · intro e
          rw [hlow r hr h1, hlow c hc h2, e]
      simp only [hrc]
      rw [← h _ _ (Nat.mod_lt r (Nat.two_pow_pos no)) (Nat.mod_lt c (Nat.two_pow_pos no))]
      rw [show 2 ^ (nc + no) = (2 ^ (nc + no) - 2 ^ no) + 2 ^ no by omega, sum_range_add]
      rw [sum_eq_zero, zero_add]
      · apply sum_congr rfl
        intro s hs
        have hs' := mem_range.mp hs
        have hon : ∀ i, i < nc → (2 ^ (nc + no) - 2 ^ no + s).testBit (no + i) = true :=
          (allOnes_iff nc no _ (by omega)).mpr (by omega)
        have hmod : (2 ^ (nc + no) - 2 ^ no + s) % 2 ^ no = s := by
          rw [← sub_thr_mod nc no _ (by omega) (by omega)]; omega
        simp only [ctrlMat, if_pos hon, if_pos h1, if_pos h2, hmod]
      · intro s hs
        have hs' := mem_range.mp hs
        have hoff : ¬ ∀ i, i < nc → s.testBit (no + i) = true := by
          rw [allOnes_iff nc no s (by omega)]; omega
        simp only [ctrlMat, if_neg hoff]
        rw [if_neg (by rintro rfl; exact hoff h1), star_zero, zero_mul]
    · rw [if_neg (by rintro rfl; exact h2 h1)]
      apply sum_eq_zero
      intro s hs
      unfold ctrlMat
      by_cases h3 : ∀ i, i < nc → s.testBit (no + i) = true
      · rw [if_pos h3, if_neg h2, if_pos h3, mul_zero]
      · rw [if_neg h3, if_neg (by rintro rfl; exact h3 h1), star_zero, zero_mul]
  · rw [sum_eq_single r]
    · unfold ctrlMat
      rw [if_neg h1, if_pos rfl, star_one, one_mul, if_neg h1]
    · intro s hs hne
      unfold ctrlMat
      by_cases h3 : ∀ i, i < nc → s.testBit (no + i) = true
      · rw [if_pos h3, if_neg h1, star_zero, zero_mul]
      · rw [if_neg h3, if_neg hne, star_zero, zero_mul]
    · intro hn; exact absurd (mem_range.mpr hr) hn

theorem swap_unitary [StarRing K] (a : ℕ) (idx : List ℕ) : IsUnitary (a * 2) (opMat (.swap a idx : MatrixOp K)) := by
  intro r c hr hc
  have hm : ∀ x y, x < 2 ^ (a * 2) → y < 2 ^ (a * 2) → opMat (.swap a idx : MatrixOp K) x y =
      if x = swapHalves a y then 1 else 0 := by
    intro x y hx hy
    simp only [opMat]
    congr 1
    apply propext
    rw [eq_comm, swapHalves_iff a y x hy hx]
    constructor
    · intro h i hi; exact ⟨(h i hi).2.symm, (h i hi).1.symm⟩
    · intro h i hi; exact ⟨(h i hi).2.symm, (h i hi).1.symm⟩
  have hinj : swapHalves a r = swapHalves a c → r = c := by
    intro e
    have h1 := (swapHalves_iff a r _ hr (swapHalves_lt a r hr)).mp rfl
    have h2 := (swapHalves_iff a c _ hc (swapHalves_lt a c hc)).mp rfl
    apply Nat.eq_of_testBit_eq
    intro i
    by_cases hi : i < a * 2
    · by_cases hi2 : i < a
      · rw [(h1 i hi2).1, (h2 i hi2).1, e]
      · have g1 := (h1 (i - a) (by omega)).2
        have g2 := (h2 (i - a) (by omega)).2
        rw [show a + (i - a) = i by omega] at g1 g2
        rw [g1, g2, e]
    · have : 2 ^ (a * 2) ≤ 2 ^ i := Nat.pow_le_pow_right (by norm_num) (by omega)
      rw [Nat.testBit_lt_two_pow (lt_of_lt_of_le hr this), Nat.testBit_lt_two_pow (lt_of_lt_of_le hc this)]
  rw [sum_eq_single (swapHalves a r)]
  · rw [hm _ _ (swapHalves_lt a r hr) hr, hm _ _ (swapHalves_lt a r hr) hc, if_pos rfl, star_one, one_mul]
    congr 1
    apply propext
    exact ⟨hinj, fun e => by rw [e]⟩
  · intro s hs hne
    rw [hm s r (mem_range.mp hs) hr, if_neg hne, star_zero, zero_mul]
  · intro hn; exact absurd (mem_range.mpr (swapHalves_lt a r hr)) hn

end Verif
