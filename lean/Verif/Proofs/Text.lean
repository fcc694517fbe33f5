import Verif.Spec.Text
import Verif.Props.Parse

/-!
# Lemmas for C93
-/

namespace Verif
open Props

/-! ## indices -/

theorem commaPieces_append (e rest : List Tok) (j : Bool) (h : ∀ j, Tok.punct ',' j ∉ e) :
    commaPieces (e ++ .punct ',' j :: rest) = e :: commaPieces rest := by
  induction e with
  | nil => rfl
  | cons t ts ih =>
    have ih := ih fun j hj => h j (List.mem_cons_of_mem _ hj)
    rw [List.cons_append, commaPieces]
    · rw [ih]
    · intro j hj
      exact h j (by rw [hj]; exact List.mem_cons_self)

theorem commaPieces_one (e : List Tok) (hn : e ≠ []) (h : ∀ j, Tok.punct ',' j ∉ e) : commaPieces e = [e] := by
  induction e with
  | nil => exact absurd rfl hn
  | cons t ts ih =>
    rw [commaPieces]
    · by_cases ht : ts = []
      · subst ht; rfl
      · rw [ih ht fun j hj => h j (List.mem_cons_of_mem _ hj)]
    · intro j hj
      exact h j (by rw [hj]; exact List.mem_cons_self)

theorem commaPieces_commas (es : List (List Tok)) (h : ∀ e ∈ es, Expr e) : commaPieces (commas es) = es := by
  induction es with
  | nil => rfl
  | cons e es ih =>
    have he := h e List.mem_cons_self
    cases es with
    | nil => exact commaPieces_one e he.ne he.comma
    | cons e' es =>
      show commaPieces (e ++ .punct ',' false :: commas (e' :: es)) = _
      rw [commaPieces_append _ _ _ he.comma, ih fun x hx => h x (List.mem_cons_of_mem _ hx)]

/-- the first token is not the start of a range operator -/
theorem rangeOf_cons (t : Tok) (ts : List Tok) (h : ∀ j us, t = .punct '.' true → ts ≠ .punct '.' j :: us) :
    rangeOf (t :: ts) = (rangeOf ts).map fun p => (t :: p.1, p.2) := by
  rw [rangeOf]
  · intro j us h1 h2
    exact h _ _ h1 h2
  · intro j us h1 h2
    exact h _ _ h1 h2

theorem rangeOf_none (e : List Tok) (h : ∀ pre j post, e ≠ pre ++ .punct '.' true :: .punct '.' j :: post) : rangeOf e = none := by
  induction e with
  | nil => rfl
  | cons t ts ih =>
    rw [rangeOf_cons, ih]
    · rfl
    · intro pre j post he
      exact h (t :: pre) j post (by rw [he]; rfl)
    · intro j us h1 h2
      exact h [] j us (by rw [h1, h2]; rfl)

theorem rangeOf_append (e rest : List Tok) (j : Bool) (h : ∀ pre j post, e ≠ pre ++ .punct '.' true :: .punct '.' j :: post)
    (hl : ∀ c j ts, e = ts ++ [.punct c j] → c ≠ '.') :
    rangeOf (e ++ .punct '.' true :: .punct '.' j :: rest) =
      (rangeOf (.punct '.' true :: .punct '.' j :: rest)).map fun p => (e ++ p.1, p.2) := by
  induction e with
  | nil =>
    show rangeOf (.punct '.' true :: .punct '.' j :: rest) = _
    cases rangeOf (.punct '.' true :: .punct '.' j :: rest) <;> rfl
  | cons t ts ih =>
    rw [List.cons_append, rangeOf_cons, ih]
    · cases rangeOf (.punct '.' true :: .punct '.' j :: rest) <;> rfl
    · intro pre j post he
      exact h (t :: pre) j post (by rw [he]; rfl)
    · intro c j us he
      exact hl c j (t :: us) (by rw [he]; rfl)
    · intro j' us h1 h2
      cases ts with
      | nil => exact hl '.' true [] (by rw [h1]; rfl) rfl
      | cons t' ts' =>
        simp only [List.cons_append, List.cons.injEq] at h2
        exact h [] j' ts' (by rw [h1, h2.1]; rfl)

theorem Expr.rangeless {e : List Tok} (h : Expr e) : rangeOf e = none := rangeOf_none e h.dots

theorem rangeOf_range {e f : List Tok} (he : Expr e) (hf : Expr f) :
    rangeOf (e ++ .punct '.' true :: .punct '.' false :: f) = some (e, false, f) := by
  rw [rangeOf_append e f false he.dots he.last, rangeOf]
  · simp
  · intro j ts _ h
    cases h

theorem rangeOf_incl {e f : List Tok} (he : Expr e) :
    rangeOf (e ++ .punct '.' true :: .punct '.' true :: .punct '=' false :: f) = some (e, true, f) := by
  rw [rangeOf_append e _ true he.dots he.last, rangeOf]
  simp

theorem range'_filter (a b : ℕ) : List.range' a (b - a) = (List.range b).filter fun i => a ≤ i := by
  induction b with
  | zero => simp
  | succ b ih =>
    rw [List.range_succ, List.filter_append, ← ih]
    by_cases h : a ≤ b
    · rw [show b + 1 - a = (b - a) + 1 by omega, List.range'_1_concat]
      simp [h]
    · rw [show b + 1 - a = 0 by omega, show b - a = 0 by omega]
      simp [h]

/-- the indices of a register are read as written -/
theorem evalIndices_meaning (num : List Tok → Option ℕ) (i : IdxText) (h : i.Good) :
    (evalIndices num i.tok).map QubitIndices.intoIter = i.meaning num := by
  cases i with
  | list es =>
    show (evalIndices num (.group .bracket (commas es))).map _ = es.mapM num
    have hp : (es.mapM fun p => if (rangeOf p).isSome then none else num p) = es.mapM num := by
      have : ∀ l : List (List Tok), (∀ e ∈ l, Expr e) → (l.mapM fun p => if (rangeOf p).isSome then none else num p) = l.mapM num := by
        intro l hl
        induction l with
        | nil => rfl
        | cons e l ih =>
          rw [List.mapM_cons, List.mapM_cons, ih fun x hx => hl x (List.mem_cons_of_mem _ hx), (hl e List.mem_cons_self).rangeless]
          rfl
      exact this es h
    unfold evalIndices
    simp only []
    rw [commaPieces_commas es h]
    match es, h, hp with
    | [], _, _ => rfl
    | [e], h, _ =>
      simp only [(h e (by simp)).rangeless, List.mapM_cons, List.mapM_nil]
      cases num e <;> rfl
    | e :: e' :: es, _, hp =>
      simp only []
      rw [hp]
      cases List.mapM num (e :: e' :: es) <;> rfl
  | range e f =>
    obtain ⟨he, hf⟩ := h
    unfold evalIndices IdxText.tok IdxText.meaning
    simp only []
    rw [commaPieces_one _ (by simp) (by
      intro j hj
      simp only [List.mem_append, List.mem_cons] at hj
      rcases hj with hj | hj | hj | hj
      · exact he.comma j hj
      · cases hj
      · cases hj
      · exact hf.comma j hj)]
    simp only [rangeOf_range he hf]
    cases num e with
    | none => rfl
    | some a =>
      cases num f with
      | none => rfl
      | some b => exact congrArg some (range'_filter a b)
  | rangeInclusive e f =>
    obtain ⟨he, hf⟩ := h
    unfold evalIndices IdxText.tok IdxText.meaning
    simp only []
    rw [commaPieces_one _ (by simp) (by
      intro j hj
      simp only [List.mem_append, List.mem_cons] at hj
      rcases hj with hj | hj | hj | hj | hj
      · exact he.comma j hj
      · cases hj
      · cases hj
      · cases hj
      · exact hf.comma j hj)]
    simp only [rangeOf_incl he]
    cases num e with
    | none => rfl
    | some a =>
      cases num f with
      | none => rfl
      | some b => exact congrArg some (range'_filter a (b + 1))

/-! ## the text -/

/-- what is read for a register -/
def RegSpec.read (r : RegSpec) : RegText := (r.name, r.indices.map IdxText.tok)

theorem IdxText.tok_sep (i : IdxText) : ¬ isSep i.tok := by cases i <;> exact id

theorem RegSpec.written (r : RegSpec) {ts : List Tok} {gs : List (List RegText)} (hs : ts = [] ∨ ∃ j us, ts = .punct ',' j :: us)
    (h : Written True ts gs) : Written True (r.toks ++ ts) ([r.read] :: gs) := by
  obtain ⟨n, i⟩ := r
  cases i with
  | none => exact .bare n hs h
  | some i => exact .indexed n i.tok i.tok_sep h

theorem regs_written (rs : List RegSpec) : Written True (commas (rs.map RegSpec.toks)) (rs.map fun r => [r.read]) := by
  induction rs with
  | nil => exact .nil
  | cons r rs ih =>
    cases rs with
    | nil =>
      have := r.written (.inl rfl) (Written.nil (strict := True))
      rw [List.append_nil] at this
      exact this
    | cons r' rs =>
      exact r.written (.inr ⟨false, _, rfl⟩) (.comma false ih)

theorem GroupText.written (g : GroupText) {ts : List Tok} {gs : List (List RegText)} (hs : ts = [] ∨ ∃ j us, ts = .punct ',' j :: us)
    (h : Written True ts gs) : Written True (g.toks ++ ts) (g.regs.map RegSpec.read :: gs) := by
  cases g with
  | one r => exact r.written hs h
  | many rs =>
    refine .group .bracket (rs.map RegSpec.read) ?_ h
    rw [List.map_map]
    exact regs_written rs

theorem groups_written (gs : List GroupText) : Written True (commas (gs.map GroupText.toks)) (gs.map fun g => g.regs.map RegSpec.read) := by
  induction gs with
  | nil => exact .nil
  | cons g gs ih =>
    cases gs with
    | nil =>
      have := g.written (.inl rfl) (Written.nil (strict := True))
      rw [List.append_nil] at this
      exact this
    | cons g' gs =>
      exact g.written (.inr ⟨false, _, rfl⟩) (.comma false ih)

/-- a line in the terms of C61 -/
def WLine.spec (l : WLine) : LineSpec :=
  ⟨l.control, l.mask.map fun b => (.paren, b), l.function, l.args, commas (l.groups.map GroupText.toks), l.groups.map fun g => g.regs.map RegSpec.read⟩

theorem commas_paren (gs : List GroupText) (ts us : List Tok) : commas (gs.map GroupText.toks) ≠ .group .paren ts :: us := by
  intro h
  match gs with
  | [] => cases h
  | [.one r] => cases h
  | [.many rs] => cases h
  | .one r :: _ :: _ => cases h
  | .many rs :: _ :: _ => cases h

theorem WLine.spec_good {l : WLine} (h : l.Good) : l.spec.Good :=
  ⟨groups_written l.groups, by simpa [WLine.spec] using h.some, fun hc => by simp [WLine.spec, h.mask hc], h.name,
    fun _ => commas_paren l.groups⟩

theorem WLine.spec_text (l : WLine) : l.spec.text = l.toks := by
  unfold LineSpec.text WLine.toks WLine.spec
  cases l.mask <;> rfl

theorem linesText_semis (ls : List WLine) : linesText (ls.map WLine.spec) = semis (ls.map WLine.toks) := by
  induction ls with
  | nil => rfl
  | cons l ls ih =>
    cases ls with
    | nil => exact l.spec_text
    | cons l' ls =>
      show l.spec.text ++ .punct ';' false :: linesText ((l' :: ls).map WLine.spec) = _
      rw [ih, l.spec_text]
      rfl

theorem inputsText_commas (ns : List String) : inputsText ns = commas (ns.map fun r => [.ident r]) := by
  induction ns with
  | nil => rfl
  | cons n ns ih =>
    cases ns with
    | nil => rfl
    | cons n' ns =>
      show Tok.ident n :: .punct ',' false :: inputsText (n' :: ns) = _
      rw [ih]
      rfl

theorem textOf_eq (builder : List Tok) (inputs : List String) (lines : List WLine) (final : Bool) :
    textOf builder inputs lines final = programText builder inputs (lines.map WLine.spec) final := by
  unfold textOf programText
  rw [linesText_semis, inputsText_commas]

/-! ## the meaning -/

variable {β : Type}

theorem expandSel_means (env : Env β) (inputs : List String) (r : RegSpec) (s : Sel) (hn : inputs.Nodup) (hg : ∀ i ∈ r.indices, i.Good) :
    expandSel env inputs r.read = some s ↔ r.Means env.num inputs s := by
  obtain ⟨n, i⟩ := r
  obtain ⟨k, is⟩ := s
  unfold expandSel RegSpec.Means RegSpec.read
  simp only []
  have hk : (n ∈ inputs ∧ inputs.idxOf n = k) ↔ inputs[k]? = some n := by
    constructor
    · rintro ⟨h1, rfl⟩
      rw [List.getElem?_eq_getElem (List.idxOf_lt_length_iff.mpr h1), List.getElem_idxOf]
    · intro h
      obtain ⟨h1, h2⟩ := List.getElem?_eq_some_iff.mp h
      subst h2
      exact ⟨List.getElem_mem h1, hn.idxOf_getElem k h1⟩
  rw [← hk]
  cases i with
  | none =>
    by_cases h : n ∈ inputs
    · simp [h, eq_comm]
    · simp [h]
  | some i =>
    have he := evalIndices_meaning env.num i (hg i rfl)
    by_cases h : n ∈ inputs
    · simp only [h, if_true, Option.map_some, true_and]
      rw [← he]
      cases evalIndices env.num i.tok with
      | none => simp
      | some q => simp [eq_comm]
    · simp [h]

/-- `mapM` of options succeeds where each does -/
theorem mapM_some_iff {α γ : Type} (f : α → Option γ) (l : List α) (r : List γ) :
    l.mapM f = some r ↔ List.Forall₂ (fun a b => f a = some b) l r := by
  induction l generalizing r with
  | nil => simp [List.mapM_nil, eq_comm]
  | cons a l ih =>
    rw [List.mapM_cons]
    constructor
    · intro h
      cases ha : f a with
      | none => rw [ha] at h; cases h
      | some b =>
        rw [ha] at h
        cases hl : l.mapM f with
        | none => rw [hl] at h; cases h
        | some r' =>
          rw [hl] at h
          cases h
          exact .cons ha ((ih r').mp hl)
    · intro h
      cases h with
      | cons h1 h2 =>
        rw [h1, (ih _).mpr h2]
        rfl

theorem forall₂_iff {α γ : Type} {P Q : α → γ → Prop} (l : List α) (r : List γ) (h : ∀ a ∈ l, ∀ b, P a b ↔ Q a b) :
    List.Forall₂ P l r ↔ List.Forall₂ Q l r := by
  induction l generalizing r with
  | nil => simp
  | cons a l ih =>
    cases r with
    | nil => simp
    | cons b r =>
      rw [List.forall₂_cons, List.forall₂_cons, h a List.mem_cons_self b, ih r fun a ha => h a (List.mem_cons_of_mem _ ha)]

theorem groups_means (env : Env β) (inputs : List String) (gs : List GroupText) (ss : List (List Sel)) (hn : inputs.Nodup)
    (hg : ∀ g ∈ gs, ∀ r ∈ g.regs, ∀ i ∈ r.indices, i.Good) :
    ((gs.map fun g => g.regs.map RegSpec.read).mapM fun g => g.mapM (expandSel env inputs)) = some ss ↔
      List.Forall₂ (fun g ss => List.Forall₂ (RegSpec.Means env.num inputs) g.regs ss) gs ss := by
  rw [mapM_some_iff, List.forall₂_map_left_iff]
  refine forall₂_iff _ _ fun g h ss => ?_
  rw [mapM_some_iff, List.forall₂_map_left_iff]
  exact forall₂_iff _ _ fun r hr s => expandSel_means env inputs r s hn (hg g h r hr)

theorem expandLine_means (env : Env β) (inputs : List String) (l : WLine) (x : Line β) (hn : inputs.Nodup) (hg : l.Good) :
    expandLine env inputs l.spec.parsed = some x ↔ l.Means env inputs x := by
  have h := fun ss => groups_means env inputs l.groups ss hn hg.regs
  obtain ⟨c, m, f, a, gs⟩ := l
  simp only [WLine.spec, LineSpec.parsed, expandLine] at h ⊢
  cases hq : ((gs.map fun g => g.regs.map RegSpec.read).mapM fun g => g.mapM (expandSel env inputs)) with
  | none =>
    have h' : ∀ ss, ¬ List.Forall₂ (fun g ss => List.Forall₂ (RegSpec.Means env.num inputs) g.regs ss) gs ss := fun ss hs => by
      have := (h ss).mpr hs
      rw [hq] at this
      cases this
    constructor
    · intro hh; cases hh
    · intro hh
      cases x with
      | plain f' gs' => exact absurd hh.2.2 (h' gs')
      | control m' f' gs' => exact absurd hh.2.2.2 (h' gs')
  | some ss =>
    have hu : ∀ ss', List.Forall₂ (fun g ss => List.Forall₂ (RegSpec.Means env.num inputs) g.regs ss) gs ss' ↔ ss = ss' := fun ss' => by
      rw [← h ss', hq]
      simp
    cases c with
    | false =>
      show (env.fn f a).bind (fun f => some (Line.plain f ss)) = some x ↔ _
      cases hf : env.fn f a with
      | none =>
        constructor
        · intro hh; cases hh
        · intro hh
          cases x with
          | plain f' gs' => have := hh.2.1; simp only [hf] at this; cases this
          | control m' f' gs' => have := hh.1; cases this
      | some f0 =>
        cases x with
        | plain f' gs' =>
          show some (Line.plain f0 ss) = some (.plain f' gs') ↔ (false = false ∧ env.fn f a = some f' ∧ List.Forall₂ _ gs gs')
          rw [hu, hf]
          simp
        | control m' f' gs' =>
          show some (Line.plain f0 ss) = some (.control m' f' gs') ↔ (false = true ∧ _)
          simp
    | true =>
      cases x with
      | plain f' gs' =>
        show _ ↔ (true = false ∧ _)
        simp only [Bool.true_eq_false, false_and, iff_false]
        intro hh
        cases m with
        | none =>
          cases hf : env.cfn f a with
          | none => simp [hf] at hh
          | some f0 => simp [hf] at hh
        | some ts =>
          cases hf : env.cfn f a with
          | none => cases hm : env.num ts <;> simp [hf, hm] at hh
          | some f0 => cases hm : env.num ts <;> simp [hf, hm] at hh
      | control m' f' gs' =>
        show _ ↔ (true = true ∧ env.cfn f a = some f' ∧ _ ∧ List.Forall₂ _ gs gs')
        rw [hu]
        cases m with
        | none =>
          cases hf : env.cfn f a with
          | none => simp
          | some f0 => simp [and_left_comm, eq_comm]
        | some ts =>
          cases hf : env.cfn f a with
          | none => cases hm : env.num ts <;> simp
          | some f0 => cases hm : env.num ts <;> simp [hm, and_left_comm, eq_comm (a := m'), eq_comm (a := f0)]

end Verif
