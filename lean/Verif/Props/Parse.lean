import Verif.Model.Parse
import Mathlib.Tactic.Tauto

/-!
# Properties C55, C61, C62: the parsers of the macros

C55: the register list of a line. Refuted as stated, because a `;` inside a bracketed group silently drops the rest of the
group; proved: the parser accepts exactly the grammar `Written`, and consumes exactly one line.
C61: a whole program. C62: the argument names found by `#[invert]`.
-/

namespace Verif.Props

/-! ## Spec: the text of a register list -/

/-- a token that separates registers or ends a line -/
def isSep : Tok → Prop
  | .punct c _ => c = ',' ∨ c = ';'
  | _ => False

/-- a token that ends a line -/
def isEnd : Tok → Prop
  | .punct c _ => c = ';'
  | _ => False

/-- `Written strict ts gs`: the tokens `ts` are a list of registers and groups of registers, `gs`. A register is a name,
optionally followed by one token for its indices; a name without indices is followed by a comma or nothing. If not
`strict`, a group may contain a `;`, after which anything may follow. -/
inductive Written (strict : Prop) : List Tok → List (List RegText) → Prop where
  | nil : Written strict [] []
  | comma (j : Bool) {ts gs} : Written strict ts gs → Written strict (.punct ',' j :: ts) gs
  | bare (r : String) {ts gs} : (ts = [] ∨ ∃ j us, ts = .punct ',' j :: us) → Written strict ts gs →
      Written strict (.ident r :: ts) ([(r, none)] :: gs)
  | indexed (r : String) (t : Tok) {ts gs} : ¬ isSep t → Written strict ts gs →
      Written strict (.ident r :: t :: ts) ([(r, some t)] :: gs)
  | group (d : Delim) {inner : List Tok} (rs : List RegText) {ts gs} : Written strict inner (rs.map fun r => [r]) →
      Written strict ts gs → Written strict (.group d inner :: ts) (rs :: gs)
  | groupEnd (d : Delim) {inner : List Tok} (e : Tok) (junk : List Tok) (rs : List RegText) {ts gs} : ¬ strict → isEnd e →
      Written strict inner (rs.map fun r => [r]) → Written strict ts gs →
      Written strict (.group d (inner ++ e :: junk) :: ts) (rs :: gs)

/-- C55: what is parsed is what is written, one line is used up, and nothing else is accepted -/
def C55_claim : Prop :=
  ∀ (ts rest : List Tok) (gs : List (List RegText)),
    parseRegs ts = .ok (gs, rest) ↔ ∃ line, Written True line gs ∧ ((ts = line ∧ rest = []) ∨ ∃ e, isEnd e ∧ ts = line ++ e :: rest)

/-! ## The parser follows the grammar -/

theorem mapM_single (rs : List RegText) (l : List (List RegText)) : l.mapM single = .ok rs ↔ l = rs.map fun r => [r] := by
  induction l generalizing rs with
  | nil =>
    rw [List.mapM_nil]
    show Except.ok [] = Except.ok rs ↔ _
    cases rs <;> simp
  | cons v l ih =>
    rw [List.mapM_cons]
    match v with
    | [] =>
      show Except.error Fail.panic = _ ↔ _
      cases rs <;> simp
    | [r] =>
      show (l.mapM single >>= fun x => pure (r :: x)) = _ ↔ _
      cases h : l.mapM single with
      | error e =>
        show Except.error e = _ ↔ _
        constructor
        · intro h; cases h
        · intro h2
          cases rs with
          | nil => simp at h2
          | cons r' rs =>
            simp only [List.map_cons, List.cons.injEq] at h2
            rw [(ih rs).mpr h2.2] at h
            cases h
      | ok x =>
        have := (ih x).mp h
        show Except.ok (r :: x) = _ ↔ _
        rw [this]
        constructor
        · intro h; cases h; rfl
        · intro h2
          cases rs with
          | nil => simp at h2
          | cons r' rs =>
            simp only [List.map_cons, List.cons.injEq, and_true] at h2
            rw [h2.1, List.map_injective_iff.mpr (fun a b h => by simpa using h) h2.2]
    | _ :: _ :: _ =>
      show Except.error Fail.panic = _ ↔ _
      cases rs <;> simp

/-- what the parser does on a line followed by an end mark or by nothing -/
theorem parseRegs_written {line : List Tok} {gs : List (List RegText)} (h : Written False line gs) :
    parseRegs line = .ok (gs, []) ∧ ∀ (e : Tok) (rest : List Tok), isEnd e → parseRegs (line ++ e :: rest) = .ok (gs, rest) := by
  have hend : ∀ (e : Tok) (rest : List Tok), isEnd e → parseRegs (e :: rest) = .ok ([], rest) := by
    intro e rest he
    match e, he with
    | .punct c j, he =>
      have : c = ';' := he
      subst this
      rw [parseRegs]
      simp
  induction h with
  | nil => exact ⟨by rw [parseRegs], fun e rest he => hend e rest he⟩
  | comma j h ih =>
    constructor
    · rw [parseRegs, if_pos rfl]; exact ih.1
    · intro e rest he
      rw [List.cons_append, parseRegs, if_pos rfl]
      exact ih.2 e rest he
  | @bare r ts gs hts h ih =>
    constructor
    · have h1 : parseIndices ts = (none, ts) := by
        rcases hts with rfl | ⟨j, us, rfl⟩ <;> simp [parseIndices]
      rw [parseRegs, h1]
      simp only [ih.1]
      rfl
    · intro e rest he
      have h1 : parseIndices (ts ++ e :: rest) = (none, ts ++ e :: rest) := by
        rcases hts with rfl | ⟨j, us, rfl⟩
        · match e, he with
          | .punct c j, he =>
            have : c = ';' := he
            subst this
            simp [parseIndices]
        · simp [parseIndices]
      rw [List.cons_append, parseRegs, h1]
      simp only [ih.2 e rest he]
      rfl
  | @indexed r t ts gs ht h ih =>
    have h1 : ∀ us, parseIndices (t :: us) = (some t, us) := by
      intro us
      cases t with
      | punct c j =>
        have : ¬ (c = ',' ∨ c = ';') := ht
        rw [parseIndices, if_neg (by tauto)]
      | ident s => rfl
      | lit s => rfl
      | group d ts => rfl
    constructor
    · rw [parseRegs, h1]
      simp only [ih.1]
      rfl
    · intro e rest he
      rw [List.cons_append, List.cons_append, parseRegs, h1]
      simp only [ih.2 e rest he]
      rfl
  | @group d inner rs ts gs h1 h2 ih1 ih2 =>
    constructor
    · rw [parseRegs, ih1.1]
      show ((rs.map fun r => [r]).mapM single >>= _) = _
      rw [(mapM_single rs _).mpr rfl]
      show (parseRegs ts >>= _) = _
      rw [ih2.1]
      rfl
    · intro e rest he
      rw [List.cons_append, parseRegs, ih1.1]
      show ((rs.map fun r => [r]).mapM single >>= _) = _
      rw [(mapM_single rs _).mpr rfl]
      show (parseRegs (ts ++ e :: rest) >>= _) = _
      rw [ih2.2 e rest he]
      rfl
  | @groupEnd d inner e junk rs ts gs _ hj h1 h2 ih1 ih2 =>
    have h3 := ih1.2 e junk hj
    constructor
    · rw [parseRegs, h3]
      show ((rs.map fun r => [r]).mapM single >>= _) = _
      rw [(mapM_single rs _).mpr rfl]
      show (parseRegs ts >>= _) = _
      rw [ih2.1]
      rfl
    · intro e' rest he
      rw [List.cons_append, parseRegs, h3]
      show ((rs.map fun r => [r]).mapM single >>= _) = _
      rw [(mapM_single rs _).mpr rfl]
      show (parseRegs (ts ++ e' :: rest) >>= _) = _
      rw [ih2.2 e' rest he]
      rfl

theorem bind_okE {α β : Type} {x : Except Fail α} {f : α → Except Fail β} {b : β} (h : (x >>= f) = .ok b) :
    ∃ a, x = .ok a ∧ f a = .ok b := by
  cases x with
  | error e => cases h
  | ok a => exact ⟨a, rfl, h⟩

/-- what the parser accepts is written according to the grammar -/
theorem written_of_parseRegs : (ts : List Tok) → (gs : List (List RegText)) → (rest : List Tok) → parseRegs ts = .ok (gs, rest) →
    ∃ line, Written False line gs ∧ ((ts = line ∧ rest = []) ∨ ∃ e, isEnd e ∧ ts = line ++ e :: rest)
  | [], gs, rest, h => by
    rw [parseRegs] at h
    cases h
    exact ⟨[], .nil, .inl ⟨rfl, rfl⟩⟩
  | .group d inner :: us, gs, rest, h => by
    rw [parseRegs] at h
    obtain ⟨⟨sub, x⟩, h1, h⟩ := bind_okE h
    obtain ⟨g, h2, h⟩ := bind_okE h
    obtain ⟨⟨gs', rest'⟩, h3, h⟩ := bind_okE h
    cases h
    obtain ⟨l1, w1, e1⟩ := written_of_parseRegs inner _ _ h1
    obtain ⟨l2, w2, e2⟩ := written_of_parseRegs us _ _ h3
    rw [(mapM_single g sub).mp h2] at w1
    have w3 : Written False (.group d inner :: l2) (g :: gs') := by
      rcases e1 with ⟨rfl, -⟩ | ⟨e, he, rfl⟩
      · exact .group d g w1 w2
      · exact .groupEnd d e x g id he w1 w2
    refine ⟨_, w3, ?_⟩
    rcases e2 with ⟨rfl, rfl⟩ | ⟨e, he, rfl⟩
    · exact .inl ⟨rfl, rfl⟩
    · exact .inr ⟨e, he, rfl⟩
  | .punct c j :: us, gs, rest, h => by
    rw [parseRegs] at h
    split at h
    · rename_i hc
      subst hc
      obtain ⟨l, w, e⟩ := written_of_parseRegs us _ _ h
      refine ⟨_, .comma j w, ?_⟩
      rcases e with ⟨rfl, rfl⟩ | ⟨e, he, rfl⟩
      · exact .inl ⟨rfl, rfl⟩
      · exact .inr ⟨e, he, rfl⟩
    · split at h
      · rename_i hc
        cases h
        exact ⟨[], .nil, .inr ⟨.punct c j, hc, rfl⟩⟩
      · cases h
  | .lit s :: us, gs, rest, h => by
    rw [parseRegs] at h
    cases h
  | .ident r :: us, gs, rest, h => by
    rw [parseRegs] at h
    obtain ⟨⟨gs', rest'⟩, h1, h⟩ := bind_okE h
    have hsize := parseIndices_size us
    obtain ⟨l, w, e⟩ := written_of_parseRegs (parseIndices us).2 _ _ h1
    cases h
    -- either the indices were taken, or nothing was
    have hcase : (parseIndices us = (none, us) ∧ (us = [] ∨ ∃ c j vs, us = .punct c j :: vs ∧ (c = ';' ∨ c = ','))) ∨
        ∃ t vs, us = t :: vs ∧ ¬ isSep t ∧ parseIndices us = (some t, vs) := by
      match us with
      | [] => exact .inl ⟨rfl, .inl rfl⟩
      | .punct c j :: vs =>
        by_cases hc : c = ';' ∨ c = ','
        · exact .inl ⟨by rw [parseIndices, if_pos hc], .inr ⟨c, j, vs, rfl, hc⟩⟩
        · refine .inr ⟨_, vs, rfl, ?_, by rw [parseIndices, if_neg hc]⟩
          show ¬ (c = ',' ∨ c = ';')
          tauto
      | .ident s :: vs => exact .inr ⟨_, vs, rfl, id, rfl⟩
      | .lit s :: vs => exact .inr ⟨_, vs, rfl, id, rfl⟩
      | .group d ts :: vs => exact .inr ⟨_, vs, rfl, id, rfl⟩
    rcases hcase with ⟨hp, hus⟩ | ⟨t, vs, rfl, ht, hp⟩
    · rw [hp] at e h1 ⊢
      have hl : l = [] ∨ ∃ j ws, l = .punct ',' j :: ws := by
        rcases e with ⟨e1, -⟩ | ⟨e, he, e1⟩
        · rcases hus with rfl | ⟨c, j, vs, rfl, hc⟩
          · exact .inl e1.symm
          · right
            simp only at e1
            rw [← e1] at w
            rcases hc with rfl | rfl
            · cases w
            · exact ⟨j, vs, e1.symm⟩
        · simp only at e1
          cases l with
          | nil => exact .inl rfl
          | cons a ws =>
            right
            rcases hus with rfl | ⟨c, j, vs, rfl, hc⟩
            · cases e1
            · simp only [List.cons_append, List.cons.injEq] at e1
              obtain ⟨rfl, -⟩ := e1
              rcases hc with rfl | rfl
              · cases w
              · exact ⟨j, ws, rfl⟩
      refine ⟨_, .bare r hl w, ?_⟩
      rcases e with ⟨e1, rfl⟩ | ⟨e, he, e1⟩
      · simp only at e1
        exact .inl ⟨by rw [e1], rfl⟩
      · simp only at e1
        exact .inr ⟨e, he, by rw [List.cons_append, ← e1]⟩
    · rw [hp] at e ⊢
      refine ⟨_, .indexed r t ht w, ?_⟩
      rcases e with ⟨e1, rfl⟩ | ⟨e, he, e1⟩
      · simp only at e1
        exact .inl ⟨by rw [e1], rfl⟩
      · simp only at e1
        exact .inr ⟨e, he, by rw [e1]; rfl⟩
termination_by ts => sizeOf ts

/-- The parser accepts exactly the grammar in which a group may be cut short by a `;`, and uses up exactly one line. -/
theorem C55_exact_partial (ts rest : List Tok) (gs : List (List RegText)) :
    parseRegs ts = .ok (gs, rest) ↔ ∃ line, Written False line gs ∧ ((ts = line ∧ rest = []) ∨ ∃ e, isEnd e ∧ ts = line ++ e :: rest) := by
  constructor
  · exact written_of_parseRegs ts gs rest
  · rintro ⟨line, w, ⟨rfl, rfl⟩ | ⟨e, he, rfl⟩⟩
    · exact (parseRegs_written w).1
    · exact (parseRegs_written w).2 e rest he

theorem Written.loose {s : Prop} {ts : List Tok} {gs : List (List RegText)} (h : Written s ts gs) : Written False ts gs := by
  induction h with
  | nil => exact .nil
  | comma j _ ih => exact .comma j ih
  | bare r h _ ih => exact .bare r h ih
  | indexed r t h _ ih => exact .indexed r t h ih
  | group d rs _ _ ih1 ih2 => exact .group d rs ih1 ih2
  | groupEnd d e junk rs _ he _ _ ih1 ih2 => exact .groupEnd d e junk rs id he ih1 ih2

/-- Proved part of C55: every list of registers written as it should be is parsed as written, up to the end of its line. -/
theorem C55_written_partial (line rest : List Tok) (gs : List (List RegText)) (w : Written True line gs) (e : Tok) (he : isEnd e) :
    parseRegs (line ++ e :: rest) = .ok (gs, rest) ∧ parseRegs line = .ok (gs, []) :=
  ⟨(parseRegs_written w.loose).2 e rest he, (parseRegs_written w.loose).1⟩

/-- A text has one reading only. -/
theorem C55_unambiguous_partial (line : List Tok) (gs gs' : List (List RegText)) (w : Written True line gs) (w' : Written True line gs') : gs = gs' := by
  have h := (parseRegs_written w.loose).1
  rw [(parseRegs_written w'.loose).1] at h
  cases h
  rfl

/-- What is used up has no `;` but the last token, so never more than one line. -/
theorem C55_one_line_partial (ts rest : List Tok) (gs : List (List RegText)) (h : parseRegs ts = .ok (gs, rest)) :
    ∃ line, (∀ t ∈ line, ¬ isEnd t) ∧ ((ts = line ∧ rest = []) ∨ ∃ e, isEnd e ∧ ts = line ++ e :: rest) := by
  obtain ⟨line, w, e⟩ := written_of_parseRegs ts gs rest h
  refine ⟨line, ?_, e⟩
  clear e h
  induction w with
  | nil => simp
  | comma j _ ih =>
    intro t ht
    rcases List.mem_cons.mp ht with rfl | ht
    · show ¬ (',' = ';'); decide
    · exact ih t ht
  | bare r _ _ ih =>
    intro t ht
    rcases List.mem_cons.mp ht with rfl | ht
    · exact id
    · exact ih t ht
  | indexed r t' h _ ih =>
    intro t ht
    rcases List.mem_cons.mp ht with rfl | ht
    · exact id
    · rcases List.mem_cons.mp ht with rfl | ht
      · intro he
        apply h
        cases t with
        | punct c j => exact .inr he
        | _ => exact he.elim
      · exact ih t ht
  | group d rs _ _ _ ih =>
    intro t ht
    rcases List.mem_cons.mp ht with rfl | ht
    · exact id
    · exact ih t ht
  | groupEnd d e junk rs _ _ _ _ _ ih =>
    intro t ht
    rcases List.mem_cons.mp ht with rfl | ht
    · exact id
    · exact ih t ht

/-- the text `[ra; rb]` is read as `[ra]` -/
theorem C55_dropped : parseRegs [.group .bracket [.ident "ra", .punct ';' false, .ident "rb"]] = .ok ([[("ra", none)]], []) :=
  (parseRegs_written (.groupEnd .bracket (inner := [.ident "ra"]) (.punct ';' false) [.ident "rb"] [("ra", none)] id rfl
    (.bare "ra" (.inl rfl) .nil) .nil)).1

theorem written_group {d : Delim} {inner ts : List Tok} {rs : List RegText} {gs : List (List RegText)}
    (w : Written True (.group d inner :: ts) (rs :: gs)) : Written True inner (rs.map fun r => [r]) := by
  generalize hx : Tok.group d inner :: ts = x at w
  generalize hy : rs :: gs = y at w
  cases w with
  | group d' rs' w1 w2 =>
    injection hx with h1 h2
    injection h1 with h1 h3
    injection hy with h4 h5
    rw [h3, h4]
    exact w1
  | groupEnd d' e junk rs' h => exact absurd trivial h
  | _ => cases hx

theorem C55_refuted : ¬ C55_claim := by
  intro h
  obtain ⟨line, w, e⟩ := (h _ _ _).mp C55_dropped
  have hl : line = [.group .bracket [.ident "ra", .punct ';' false, .ident "rb"]] := by
    rcases e with ⟨rfl, -⟩ | ⟨e, he, e1⟩
    · rfl
    · cases line with
      | nil =>
        simp only [List.nil_append, List.cons.injEq] at e1
        rw [← e1.1] at he
        exact he.elim
      | cons a l => simp at e1
  rw [hl] at w
  have w1 := written_group w
  rcases w1 with _ | _ | ⟨_, h, _⟩
  rcases h with h | ⟨j, us, h⟩ <;> simp at h

/-- `ra[0], [rb, rc[1]] rd` -/
theorem sample_written : Written True
    [.ident "ra", .group .bracket [.lit "0"], .punct ',' false, .group .bracket [.ident "rb", .punct ',' false, .ident "rc",
      .group .bracket [.lit "1"]], .ident "rd"]
    [[("ra", some (.group .bracket [.lit "0"]))], [("rb", none), ("rc", some (.group .bracket [.lit "1"]))], [("rd", none)]] :=
  .indexed _ _ id (.comma _ (.group _ [_, _] (.bare _ (.inr ⟨_, _, rfl⟩) (.comma _ (.indexed _ _ id .nil))) (.bare _ (.inl rfl) .nil)))

example := C55_written_partial _ [.ident "next"] _ sample_written (.punct ';' false) rfl
example := C55_unambiguous_partial _ _ _ sample_written sample_written
example := C55_one_line_partial _ _ _ C55_dropped
example := (C55_exact_partial _ _ _).mp C55_dropped

/-! ## C61: whole programs -/

/-- a line as written: whether it is controlled, the mask with its brackets, the function, its arguments, the registers
as tokens and as groups -/
structure LineSpec where
  control : Bool
  bits : Option (Delim × List Tok)
  function : String
  args : Option (List Tok)
  regs : List Tok
  groups : List (List RegText)

/-- the line is well written: its registers are, there is at least one, a mask only follows `control`, a function is not
called `control`, and what follows a function without arguments does not look like arguments -/
structure LineSpec.Good (l : LineSpec) : Prop where
  regs : Written True l.regs l.groups
  some : l.groups ≠ []
  mask : l.control = false → l.bits = none
  name : l.control = false → l.function ≠ "control"
  noArgs : l.args = none → ∀ ts us, l.regs ≠ .group .paren ts :: us

/-- the tokens of a line without the end mark -/
def LineSpec.text (l : LineSpec) : List Tok :=
  (if l.control then .ident "control" :: (l.bits.map fun b => Tok.group b.1 b.2).toList else []) ++
  (.ident l.function :: (l.args.map fun a => Tok.group .paren a).toList) ++ l.regs

/-- what is to be read -/
def LineSpec.parsed (l : LineSpec) : LineText := ⟨l.control, l.bits.map Prod.snd, l.function, l.args, l.groups⟩

/-- names with commas between them -/
def inputsText : List String → List Tok
  | [] => []
  | [r] => [.ident r]
  | r :: rs => .ident r :: .punct ',' false :: inputsText rs

/-- lines with `;` between them -/
def linesText : List LineSpec → List Tok
  | [] => []
  | [l] => l.text
  | l :: ls => l.text ++ .punct ';' false :: linesText ls

/-- a program, with or without a final `;` -/
def programText (builder : List Tok) (inputs : List String) (lines : List LineSpec) (final : Bool) : List Tok :=
  builder ++ .punct ';' false :: (inputsText inputs ++ .punct ';' false ::
    (linesText lines ++ if final then [.punct ';' false] else []))

theorem parseBuilder_text (builder rest : List Tok) (h : ∀ t ∈ builder, ¬ isEnd t) :
    parseBuilder (builder ++ .punct ';' false :: rest) = (builder ++ [.punct ';' false], rest) := by
  induction builder with
  | nil => rw [List.nil_append, parseBuilder, if_pos rfl]; rfl
  | cons t ts ih =>
    have ih := ih fun u hu => h u (by simp [hu])
    cases t with
    | punct c j =>
      have hc : ¬ isEnd (.punct c j) := h _ (by simp)
      have hc : c ≠ ';' := hc
      rw [List.cons_append, parseBuilder, if_neg hc, ih]
      rfl
    | ident s => rw [List.cons_append, parseBuilder, ih]; rfl; simp
    | lit s => rw [List.cons_append, parseBuilder, ih]; rfl; simp
    | group d us => rw [List.cons_append, parseBuilder, ih]; rfl; simp

theorem parseInputs_text (inputs : List String) (rest : List Tok) :
    parseInputs (inputsText inputs ++ .punct ';' false :: rest) = .ok (inputs, rest) := by
  induction inputs with
  | nil => simp [inputsText, parseInputs]
  | cons r rs ih =>
    cases rs with
    | nil => simp [inputsText, parseInputs]; rfl
    | cons r' rs =>
      show parseInputs (.ident r :: .punct ',' false :: (inputsText (r' :: rs) ++ .punct ';' false :: rest)) = _
      rw [parseInputs, parseInputs, if_neg (by decide), if_pos rfl, ih]
      rfl

theorem parseArgs_text (args : Option (List Tok)) (ts : List Tok) (h : args = none → ∀ us vs, ts ≠ .group .paren us :: vs) :
    parseArgs ((args.map fun a => Tok.group .paren a).toList ++ ts) = (args, ts) := by
  cases args with
  | some a => rfl
  | none =>
    show parseArgs ts = _
    unfold parseArgs
    split
    · exact absurd rfl (h rfl _ _)
    · rfl

theorem parseHead_text (l : LineSpec) (h : l.Good) (rest : List Tok) (hr : rest = [] ∨ ∃ e us, isEnd e ∧ rest = e :: us) :
    parseHead (l.text ++ rest) = .ok (⟨l.control, l.bits.map Prod.snd, l.function, l.args, []⟩, l.regs ++ rest) := by
  have ha : parseArgs ((l.args.map fun a => Tok.group .paren a).toList ++ (l.regs ++ rest)) = (l.args, l.regs ++ rest) := by
    refine parseArgs_text _ _ fun hn us vs hcon => ?_
    cases hreg : l.regs with
    | nil =>
      rw [hreg, List.nil_append] at hcon
      rcases hr with rfl | ⟨e, us', he, rfl⟩
      · cases hcon
      · cases hcon
        exact he
    | cons t ts =>
      rw [hreg, List.cons_append] at hcon
      injection hcon with h1 h2
      exact h.noArgs hn us ts (by rw [hreg, h1])
  obtain ⟨control, bits, f, args, regs, groups⟩ := l
  cases control with
  | false =>
    have hb : bits = none := h.mask rfl
    have hf : f ≠ "control" := h.name rfl
    subst hb
    simp only [LineSpec.text, Bool.false_eq_true, if_false, List.nil_append, List.cons_append, List.append_assoc] at ha ⊢
    simp only [parseHead, if_neg hf, ha]
    rfl
  | true =>
    cases bits with
    | none =>
      simp only [LineSpec.text, if_true, Option.map_none, Option.toList_none, List.nil_append, List.cons_append, List.append_assoc] at ha ⊢
      simp only [parseHead, if_true, ha]
      try rfl
    | some b =>
      simp only [LineSpec.text, if_true, Option.map_some, Option.toList_some, List.nil_append, List.cons_append, List.append_assoc] at ha ⊢
      simp only [parseHead, if_true, ha]
      try rfl

theorem parseLine_text (l : LineSpec) (h : l.Good) : parseLine l.text = .ok (l.parsed, []) ∧
    ∀ e rest, isEnd e → parseLine (l.text ++ e :: rest) = .ok (l.parsed, rest) := by
  have hne : ¬ l.groups.length = 0 := fun hc => h.some (List.length_eq_zero_iff.mp hc)
  constructor
  · have h1 := parseHead_text l h [] (.inl rfl)
    rw [List.append_nil, List.append_nil] at h1
    unfold parseLine
    rw [h1]
    show (parseRegs l.regs >>= _) = _
    rw [(parseRegs_written h.regs.loose).1]
    show (if l.groups.length = 0 then _ else _) = _
    rw [if_neg hne]
    rfl
  · intro e rest he
    have h1 := parseHead_text l h (e :: rest) (.inr ⟨e, rest, he, rfl⟩)
    unfold parseLine
    rw [h1]
    show (parseRegs (l.regs ++ e :: rest) >>= _) = _
    rw [(parseRegs_written h.regs.loose).2 e rest he]
    show (if l.groups.length = 0 then _ else _) = _
    rw [if_neg hne]
    rfl

theorem text_length (l : LineSpec) : 1 ≤ l.text.length := by
  unfold LineSpec.text
  simp
  omega

theorem parseLines_text (lines : List LineSpec) (hg : ∀ l ∈ lines, l.Good) (hne : lines ≠ []) (final : Bool) (k : ℕ) (hk : lines.length ≤ k) :
    parseLines k (linesText lines ++ if final then [.punct ';' false] else []) = .ok (lines.map LineSpec.parsed) := by
  induction lines generalizing k with
  | nil => exact absurd rfl hne
  | cons l ls ih =>
    have hl := parseLine_text l (hg l (by simp))
    cases k with
    | zero => simp at hk
    | succ k =>
      cases ls with
      | nil =>
        have : parseLine (linesText [l] ++ if final then [.punct ';' false] else []) = .ok (l.parsed, []) := by
          cases final with
          | true => exact hl.2 _ _ rfl
          | false => rw [if_neg (by simp), List.append_nil]; exact hl.1
        rw [parseLines, this]
        rfl
      | cons l' ls =>
        have h1 := hl.2 (.punct ';' false) (linesText (l' :: ls) ++ if final then [.punct ';' false] else []) rfl
        have h2 := ih (fun m hm => hg m (by simp [hm])) (by simp) k (by simpa using hk)
        have h3 : (linesText (l :: l' :: ls) ++ if final then [Tok.punct ';' false] else []) =
            l.text ++ .punct ';' false :: (linesText (l' :: ls) ++ if final then [.punct ';' false] else []) := by
          simp [linesText]
        rw [h3, parseLines, h1]
        have h4 : (linesText (l' :: ls) ++ if final then [Tok.punct ';' false] else []).isEmpty = false := by
          have := text_length l'
          cases hx : (linesText (l' :: ls) ++ if final then [Tok.punct ';' false] else []) with
          | cons _ _ => rfl
          | nil =>
            exfalso
            have h5 := congrArg List.length hx
            cases ls <;> simp only [linesText, List.length_append, List.length_nil, List.length_cons] at h5 <;> omega
        show (if (linesText (l' :: ls) ++ if final then [Tok.punct ';' false] else []).isEmpty = true then _ else _) = _
        rw [h4, if_neg (by simp), h2]
        rfl

theorem linesText_length (lines : List LineSpec) : lines.length ≤ (linesText lines).length := by
  induction lines with
  | nil => simp
  | cons l ls ih =>
    have := text_length l
    cases ls with
    | nil => simpa [linesText] using this
    | cons l' ls => simp [linesText] at ih ⊢; omega

/-- `dedup` changes the length exactly if two neighbours are equal -/
theorem dedupAdj_length (l : List String) : (dedupAdj l).length ≤ l.length ∧ (l.IsChain (· ≠ ·) → dedupAdj l = l) ∧
    (¬ l.IsChain (· ≠ ·) → (dedupAdj l).length < l.length) := by
  induction l with
  | nil => simp [dedupAdj]
  | cons a l ih =>
    cases l with
    | nil => simp [dedupAdj]
    | cons b l =>
      rw [dedupAdj]
      by_cases hab : a = b
      · rw [if_pos hab]
        refine ⟨by have := ih.1; simp at this ⊢; omega, ?_, ?_⟩
        · intro h
          rw [List.isChain_cons_cons] at h
          exact absurd hab h.1
        · intro _
          have := ih.1
          simp at this ⊢
          omega
      · rw [if_neg hab]
        refine ⟨by have := ih.1; simp at this ⊢; omega, ?_, ?_⟩
        · intro h
          rw [List.isChain_cons_cons] at h
          rw [ih.2.1 h.2]
        · intro h
          rw [List.isChain_cons_cons] at h
          have := ih.2.2 fun hc => h ⟨hab, hc⟩
          simp at this ⊢
          omega

/-- C61: a program is read as written. -/
theorem C61_program (builder : List Tok) (inputs : List String) (lines : List LineSpec) (final : Bool)
    (hb : ∀ t ∈ builder, ¬ isEnd t) (hi : inputs.Nodup) (hl : ∀ l ∈ lines, l.Good) (hne : lines ≠ []) :
    parseProgram (programText builder inputs lines final) =
      .ok ⟨builder ++ [.punct ';' false], inputs, lines.map LineSpec.parsed⟩ := by
  have hd : dedupAdj inputs = inputs := (dedupAdj_length inputs).2.1 (List.Pairwise.isChain hi)
  unfold parseProgram programText
  rw [parseBuilder_text builder _ hb]
  simp only [parseInputs_text]
  show (if inputs.length ≠ (dedupAdj inputs).length then _ else _) = _
  rw [hd, if_neg (by simp)]
  rw [parseLines_text lines hl hne final _ (by
    have := linesText_length lines
    rw [List.length_append]
    omega)]
  rfl

/-! ## C63: duplicate input registers -/

/-- C63: a program with a repeated input register is rejected -/
def C63_claim : Prop :=
  ∀ (builder : List Tok) (inputs : List String) (lines : List LineSpec) (final : Bool), (∀ t ∈ builder, ¬ isEnd t) →
    (∀ l ∈ lines, l.Good) → lines ≠ [] → ¬ inputs.Nodup → parseProgram (programText builder inputs lines final) = .error .panic

/-- It is rejected exactly if two neighbours are the same. -/
theorem C63_exact_partial (builder : List Tok) (inputs : List String) (lines : List LineSpec) (final : Bool)
    (hb : ∀ t ∈ builder, ¬ isEnd t) (hl : ∀ l ∈ lines, l.Good) (hne : lines ≠ []) :
    parseProgram (programText builder inputs lines final) =
      if inputs.IsChain (· ≠ ·) then .ok ⟨builder ++ [.punct ';' false], inputs, lines.map LineSpec.parsed⟩ else .error .panic := by
  obtain ⟨h1, h2, h3⟩ := dedupAdj_length inputs
  unfold parseProgram programText
  rw [parseBuilder_text builder _ hb]
  simp only [parseInputs_text]
  show (if inputs.length ≠ (dedupAdj inputs).length then _ else _) = _
  by_cases hc : inputs.IsChain (· ≠ ·)
  · rw [if_pos hc, h2 hc, if_neg (by simp)]
    rw [parseLines_text lines hl hne final _ (by
      have := linesText_length lines
      rw [List.length_append]
      omega)]
    rfl
  · rw [if_neg hc, if_pos (by have := h3 hc; omega)]

/-- `control(0) f(2) ra[0], rb` -/
def sampleLine : LineSpec :=
  ⟨true, some (.paren, [.lit "0"]), "f", some [.lit "2"], [.ident "ra", .group .bracket [.lit "0"], .punct ',' false, .ident "rb"],
    [[("ra", some (.group .bracket [.lit "0"]))], [("rb", none)]]⟩

theorem sampleLine_good : sampleLine.Good :=
  ⟨.indexed _ _ id (.comma _ (.bare _ (.inl rfl) .nil)), by simp [sampleLine], by simp [sampleLine], by simp [sampleLine], by simp [sampleLine]⟩

theorem C63_refuted : ¬ C63_claim := by
  intro h
  have h1 := h [.ident "b"] ["ra", "rb", "ra"] [sampleLine] true (by simp [isEnd]) (by simp [sampleLine_good]) (by simp) (by decide)
  rw [C63_exact_partial _ _ _ _ (by simp [isEnd]) (by simp [sampleLine_good]) (by simp), if_pos (by simp)] at h1
  cases h1

example := C61_program [.ident "b"] ["ra", "rb"] [sampleLine, sampleLine] true (by simp [isEnd]) (by decide) (by simp [sampleLine_good]) (by simp)
example := C63_exact_partial [.ident "b"] ["ra", "ra"] [sampleLine] false (by simp [isEnd]) (by simp [sampleLine_good]) (by simp)

/-! ## C62: the arguments found by `#[invert]` -/

/-- no name followed by a single colon -/
def NoLabel (ts : List Tok) : Prop := ∀ a s b, ts ≠ a ++ Tok.ident s :: .punct ':' false :: b

/-- an argument: what is before its name (`mut`), the name, the type -/
structure ArgSpec where
  before : List Tok
  name : String
  type : List Tok

/-- the tokens of a list of arguments, with commas between them -/
def argsText : List ArgSpec → List Tok
  | [] => []
  | [a] => a.before ++ .ident a.name :: .punct ':' false :: a.type
  | a :: as => a.before ++ .ident a.name :: .punct ':' false :: (a.type ++ .punct ',' false :: argsText as)

theorem NoLabel.tail {t : Tok} {ts : List Tok} (h : NoLabel (t :: ts)) : NoLabel ts := fun a s b hab => h (t :: a) s b (by rw [hab]; rfl)

/-- tokens without labels add no argument, if no colon follows -/
theorem parseFunctionArgs_skip (ts us : List Tok) (h : NoLabel ts) (hu : ∀ vs, us ≠ .punct ':' false :: vs) :
    parseFunctionArgs (ts ++ us) = parseFunctionArgs us := by
  induction ts with
  | nil => rfl
  | cons t ts ih =>
    rw [← ih h.tail]
    cases t with
    | ident s =>
      have hnext : ∀ vs, ts ++ us ≠ .punct ':' false :: vs := by
        intro vs hv
        cases ts with
        | nil => exact hu vs hv
        | cons t' ts =>
          injection hv with h1 h2
          exact h [] s ts (by rw [h1]; rfl)
      show parseFunctionArgs (.ident s :: (ts ++ us)) = _
      cases hw : ts ++ us with
      | nil => simp [parseFunctionArgs]
      | cons w ws =>
        cases w with
        | punct c j =>
          rw [parseFunctionArgs, if_neg]
          rintro ⟨rfl, rfl⟩
          exact hnext ws hw
        | ident s => rw [parseFunctionArgs]; simp
        | lit s => rw [parseFunctionArgs]; simp
        | group d s => rw [parseFunctionArgs]; simp
    | punct c j => rw [List.cons_append, parseFunctionArgs]; simp
    | lit s => rw [List.cons_append, parseFunctionArgs]; simp
    | group d s => rw [List.cons_append, parseFunctionArgs]; simp

/-- C62: the names found are the names of the arguments, in order, whatever their types. -/
theorem C62_arguments (args : List ArgSpec) (h : ∀ a ∈ args, NoLabel a.before ∧ NoLabel a.type) :
    parseFunctionArgs (argsText args) = args.map ArgSpec.name := by
  have hcolon : ∀ us, parseFunctionArgs (.punct ':' false :: us) = parseFunctionArgs us := fun us => by rw [parseFunctionArgs]; simp
  have hcomma : ∀ us, parseFunctionArgs (.punct ',' false :: us) = parseFunctionArgs us := fun us => by rw [parseFunctionArgs]; simp
  have hname : ∀ s us, parseFunctionArgs (.ident s :: .punct ':' false :: us) = s :: parseFunctionArgs us := fun s us => by
    rw [parseFunctionArgs, if_pos ⟨rfl, rfl⟩, hcolon]
  induction args with
  | nil => rw [argsText, parseFunctionArgs]; rfl
  | cons a as ih =>
    obtain ⟨h1, h2⟩ := h a (by simp)
    have ih := ih fun x hx => h x (by simp [hx])
    cases as with
    | nil =>
      rw [argsText, parseFunctionArgs_skip _ _ h1 (by simp), hname]
      have := parseFunctionArgs_skip a.type [] h2 (by simp)
      rw [List.append_nil] at this
      rw [this, parseFunctionArgs]
      rfl
    | cons a' as =>
      rw [argsText, parseFunctionArgs_skip _ _ h1 (by simp), hname, parseFunctionArgs_skip _ _ h2 (by simp), hcomma, ih]
      · rfl
      · simp

/-- `b: &mut B, mut ra: B::Register` -/
example := C62_arguments
  [⟨[], "b", [.punct '&' false, .ident "mut", .ident "B"]⟩,
   ⟨[.ident "mut"], "ra", [.ident "B", .punct ':' true, .punct ':' false, .ident "Register"]⟩] (by
  have key : ∀ ts : List Tok, (∀ k, ∀ s, ts[k]? = some (.ident s) → ts[k + 1]? ≠ some (.punct ':' false)) → NoLabel ts := by
    intro ts h a s b hab
    refine h a.length s ?_ ?_ <;> simp [hab]
  intro a ha
  simp only [List.mem_cons, List.not_mem_nil, or_false] at ha
  rcases ha with rfl | rfl
  · refine ⟨key _ (by simp), key _ fun k s => ?_⟩
    match k with
    | 0 => simp
    | 1 => simp
    | 2 => simp
    | k + 3 => simp
  · refine ⟨key _ fun k s => ?_, key _ fun k s => ?_⟩
    · match k with
      | 0 => simp
      | k + 1 => simp
    · match k with
      | 0 => simp
      | 1 => simp
      | 2 => simp
      | 3 => simp
      | k + 4 => simp)

end Verif.Props
