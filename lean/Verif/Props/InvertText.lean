import Verif.Model.InvertText
import Verif.Props.Parse

/-!
# Property C95: `#[invert]` reads functions as they are written

The macro takes the first name that is followed by a parenthesis or `<` for the name of the function, and the first parenthesis after it for the
arguments. So it fails on `pub(crate) fn` and reads the wrong arguments after generics with parentheses such as `F: Fn(usize)`; proved for all
other functions.
-/

namespace Verif.Props

/-! ## Spec: functions as they are written -/

/-- a function: what is before its name (attributes, visibility, `fn`), its name, its generics with `<` and `>`, the builder, the other arguments,
what is between the arguments and the body (the type of the result, the `where` clause), the body -/
structure FnSpec where
  pre : List Tok
  name : String
  generics : List Tok
  builder : ArgSpec
  args : List ArgSpec
  post : List Tok
  body : List Tok

/-- the head of the function, with a name -/
def FnSpec.head (f : FnSpec) (name : Tok) : List Tok :=
  f.pre ++ name :: (f.generics ++ .group .paren (argsText (f.builder :: f.args)) :: f.post)

/-- the tokens of the function -/
def FnSpec.text (f : FnSpec) : List Tok := f.head (.ident f.name) ++ [.group .brace f.body]

/-- the attribute: the new name (or nothing) and the arguments that are not registers -/
structure AttrSpec where
  newName : Option String
  skips : List String

/-- names with commas between them -/
def namesText : List String → List Tok
  | [] => []
  | [n] => [.ident n]
  | n :: ns => .ident n :: .punct ',' false :: namesText ns

/-- the tokens of the attribute -/
def AttrSpec.text (a : AttrSpec) : List Tok :=
  match a.newName with
  | none => []
  | some n => namesText (n :: a.skips)

/-- a function is well written: visibility and attributes end with `fn`; the generics start with `<`; arguments as in C62; the result type and
the `where` clause have no braces -/
structure FnSpec.Good (f : FnSpec) : Prop where
  fn : ∃ p, f.pre = p ++ [.ident "fn"]
  generics : f.generics = [] ∨ ∃ j ts, f.generics = .punct '<' j :: ts
  args : ∀ a ∈ f.builder :: f.args, NoLabel a.before ∧ NoLabel a.type
  post : ∀ ts, .group .brace ts ∉ f.post

/-- what is to be read: the same head with the new name, the name, the builder, and the other arguments, taken for registers unless listed -/
def FnSpec.expected (f : FnSpec) (a : AttrSpec) : InvertText :=
  ⟨f.head (.ident (a.newName.getD (f.name ++ "_inv"))), f.name, f.builder.name, f.args.map fun x => (x.name, !a.skips.contains x.name)⟩

/-- C95 as stated -/
def C95_claim : Prop :=
  ∀ (f : FnSpec) (a : AttrSpec), f.Good → (a.newName = none → a.skips = []) → expandInvert a.text f.text = .ok (f.expected a)

/-- no name directly before a parenthesis or `<` -/
def NoCall (ts : List Tok) : Prop := ∀ a s t b, ts = a ++ Tok.ident s :: t :: b → opensName t = false

/-- ... and no parenthesis in the generics -/
structure FnSpec.Plain (f : FnSpec) : Prop where
  pre : NoCall f.pre
  generics : ∀ ts, .group .paren ts ∉ f.generics

/-! ## Proof -/

theorem parseSkips_names (ns : List String) : parseSkips (namesText ns) = ns := by
  induction ns with
  | nil => rfl
  | cons n ns ih =>
    cases ns with
    | nil => rfl
    | cons n' ns =>
      show parseSkips (.ident n :: .punct ',' false :: namesText (n' :: ns)) = _
      rw [parseSkips, ih]

theorem parseAttr_text (a : AttrSpec) (h : a.newName = none → a.skips = []) :
    parseAttr a.text = (a.newName.map Tok.ident, a.skips) := by
  obtain ⟨n, s⟩ := a
  cases n with
  | none => rw [h rfl]; rfl
  | some n =>
    cases s with
    | nil => rfl
    | cons m s =>
      show parseAttr (.ident n :: .punct ',' false :: namesText (m :: s)) = _
      rw [parseAttr, parseSkips_names]
      rfl

theorem findName_text (pre : List Tok) (name : String) (t : Tok) (rest : List Tok) (h : NoCall pre) (ht : opensName t = true) :
    findName (pre ++ .ident name :: t :: rest) = (pre, some name, t :: rest) := by
  have hbase : findName (.ident name :: t :: rest) = ([], some name, t :: rest) := by rw [findName, if_pos ht]
  suffices H : ∀ ts : List Tok, NoCall ts → findName (ts ++ .ident name :: t :: rest) = (ts, some name, t :: rest) from H pre h
  intro ts hts
  induction ts with
  | nil => exact hbase
  | cons x ts ih =>
    have ih := ih fun a s t b hab => hts (x :: a) s t b (by rw [hab]; rfl)
    have hskip : ∀ x : Tok, (∀ s, x ≠ .ident s) → findName (x :: (ts ++ .ident name :: t :: rest)) =
        (x :: (findName (ts ++ .ident name :: t :: rest)).1, (findName (ts ++ .ident name :: t :: rest)).2) := by
      intro x hx
      rw [findName]
      intro s u us h1
      exact absurd h1 (hx s)
    rw [List.cons_append]
    cases x with
    | ident s =>
      have hnext : ∃ u us, ts ++ .ident name :: t :: rest = u :: us ∧ opensName u = false := by
        cases ts with
        | nil => exact ⟨_, _, rfl, rfl⟩
        | cons u us => exact ⟨u, us ++ .ident name :: t :: rest, rfl, hts [] s u us rfl⟩
      obtain ⟨u, us, h1, h2⟩ := hnext
      rw [h1] at ih ⊢
      rw [findName, if_neg (by rw [h2]; simp), ih]
    | punct c j => rw [hskip _ (by simp), ih]
    | lit s => rw [hskip _ (by simp), ih]
    | group d us => rw [hskip _ (by simp), ih]

theorem findArgs_text (ts us rest : List Tok) (h : ∀ vs, Tok.group .paren vs ∉ ts) :
    findArgs (ts ++ .group .paren us :: rest) = (ts ++ [.group .paren us], parseFunctionArgs us, rest) := by
  induction ts with
  | nil => rw [List.nil_append, findArgs]; rfl
  | cons t ts ih =>
    rw [List.cons_append, findArgs]
    · rw [ih fun vs hv => h vs (List.mem_cons_of_mem _ hv)]
      rfl
    · intro vs hv
      exact h vs (by rw [hv]; exact List.mem_cons_self)

theorem untilBrace_text (ts body rest : List Tok) (h : ∀ vs, Tok.group .brace vs ∉ ts) : untilBrace (ts ++ .group .brace body :: rest) = ts := by
  induction ts with
  | nil => rfl
  | cons t ts ih =>
    rw [List.cons_append, untilBrace]
    · rw [ih fun vs hv => h vs (List.mem_cons_of_mem _ hv)]
    · intro vs hv
      exact h vs (by rw [hv]; exact List.mem_cons_self)

/-- Proved part of C95: without a name directly before a parenthesis or `<` in front of the function's name, and without parentheses in the
generics, everything is read as written. -/
theorem C95_read_partial (f : FnSpec) (a : AttrSpec) (hf : f.Good) (hp : f.Plain) (ha : a.newName = none → a.skips = []) :
    expandInvert a.text f.text = .ok (f.expected a) := by
  obtain ⟨pre, name, generics, builder, args, post, body⟩ := f
  have e1 : FnSpec.text ⟨pre, name, generics, builder, args, post, body⟩ =
      pre ++ .ident name :: (generics ++ .group .paren (argsText (builder :: args)) :: (post ++ [.group .brace body])) := by
    simp [FnSpec.text, FnSpec.head]
  obtain ⟨t, rest, h1, h2⟩ : ∃ t rest, generics ++ .group .paren (argsText (builder :: args)) :: (post ++ [.group .brace body]) = t :: rest ∧
      opensName t = true := by
    rcases hf.generics with h | ⟨j, ts, h⟩
    · simp only at h
      subst h
      exact ⟨_, _, rfl, rfl⟩
    · simp only at h
      subst h
      exact ⟨_, _, rfl, rfl⟩
  have e2 : findName (FnSpec.text ⟨pre, name, generics, builder, args, post, body⟩) =
      (pre, some name, generics ++ .group .paren (argsText (builder :: args)) :: (post ++ [.group .brace body])) := by
    rw [e1, h1]
    exact findName_text pre name t rest hp.pre h2
  have e3 := findArgs_text generics (argsText (builder :: args)) (post ++ [.group .brace body]) hp.generics
  have e4 : untilBrace (post ++ [.group .brace body]) = post := untilBrace_text post body [] hf.post
  unfold expandInvert
  rw [parseAttr_text a ha, e2]
  simp only []
  rw [e3, C62_arguments (builder :: args) hf.args]
  simp only [List.map_cons, e4]
  obtain ⟨n, s⟩ := a
  cases n with
  | none =>
    unfold FnSpec.expected FnSpec.head
    simp
  | some n =>
    unfold FnSpec.expected FnSpec.head
    simp

/-! ## Refutation -/

/-- `pub(crate) fn f(b: B) { }` -/
def crateFn : FnSpec := ⟨[.ident "pub", .group .paren [.ident "crate"], .ident "fn"], "f", [], ⟨[], "b", [.ident "B"]⟩, [], [], []⟩

theorem noLabel_one (s : String) : NoLabel [.ident s] := by
  intro a t b h
  have := congrArg List.length h
  simp at this
  omega

theorem noLabel_nil : NoLabel [] := by
  intro a t b h
  have := congrArg List.length h
  simp at this

theorem crateFn_good : crateFn.Good :=
  ⟨⟨[.ident "pub", .group .paren [.ident "crate"]], rfl⟩, .inl rfl, by
    intro a ha
    simp only [crateFn, List.mem_singleton] at ha
    subst ha
    exact ⟨noLabel_nil, noLabel_one "B"⟩, by simp [crateFn]⟩

/-- The macro panics on a function that is visible in its crate. -/
theorem C95_crate : expandInvert [] crateFn.text = .error .panic := by
  simp [expandInvert, crateFn, FnSpec.text, FnSpec.head, parseAttr, findName, opensName, findArgs, parseFunctionArgs]

/-- `fn f<F: Fn(usize)>(b: B, r: R) { }` -/
def closureFn : FnSpec :=
  ⟨[.ident "fn"], "f", [.punct '<' false, .ident "F", .punct ':' false, .ident "Fn", .group .paren [.ident "usize"], .punct '>' false],
    ⟨[], "b", [.ident "B"]⟩, [⟨[], "r", [.ident "R"]⟩], [], []⟩

theorem closureFn_good : closureFn.Good :=
  ⟨⟨[], rfl⟩, .inr ⟨false, _, rfl⟩, by
    intro a ha
    simp only [closureFn, List.mem_cons, List.not_mem_nil, or_false] at ha
    rcases ha with rfl | rfl
    · exact ⟨noLabel_nil, noLabel_one "B"⟩
    · exact ⟨noLabel_nil, noLabel_one "R"⟩, by simp [closureFn]⟩

/-- The macro also panics on generics with `Fn(usize)`. -/
theorem C95_closure : expandInvert [] closureFn.text = .error .panic := by
  simp [expandInvert, closureFn, FnSpec.text, FnSpec.head, parseAttr, findName, opensName, findArgs, parseFunctionArgs]

theorem C95_refuted : ¬ C95_claim := by
  intro h
  have h1 := h crateFn ⟨none, []⟩ crateFn_good fun _ => rfl
  rw [show AttrSpec.text ⟨none, []⟩ = [] from rfl, C95_crate] at h1
  cases h1

/-! ## Examples -/

/-- `pub fn gamma<B>(b: &mut B, skip: bool, ra: B::Register) -> R where B: T { }` -/
def gammaFn : FnSpec :=
  ⟨[.ident "pub", .ident "fn"], "gamma", [.punct '<' false, .ident "B", .punct '>' false],
    ⟨[], "b", [.punct '&' false, .ident "mut", .ident "B"]⟩,
    [⟨[], "skip", [.ident "bool"]⟩, ⟨[.ident "mut"], "ra", [.ident "B", .punct ':' true, .punct ':' false, .ident "Register"]⟩],
    [.punct '-' true, .punct '>' false, .ident "R", .ident "where", .ident "B", .punct ':' false, .ident "T"], [.ident "todo"]⟩

theorem noLabel_of (ts : List Tok) (h : ∀ k, ∀ s, ts[k]? = some (.ident s) → ts[k + 1]? ≠ some (.punct ':' false)) : NoLabel ts := by
  intro a s b hab
  refine h a.length s ?_ ?_ <;> simp [hab]

theorem gammaFn_good : gammaFn.Good :=
  ⟨⟨[.ident "pub"], rfl⟩, .inr ⟨false, _, rfl⟩, by
    intro a ha
    simp only [gammaFn, List.mem_cons, List.not_mem_nil, or_false] at ha
    rcases ha with rfl | rfl | rfl
    · refine ⟨noLabel_nil, noLabel_of _ fun k s => ?_⟩
      match k with
      | 0 => simp
      | 1 => simp
      | 2 => simp
      | k + 3 => simp
    · exact ⟨noLabel_nil, noLabel_one _⟩
    · refine ⟨noLabel_one _, noLabel_of _ fun k s => ?_⟩
      match k with
      | 0 => simp
      | 1 => simp
      | 2 => simp
      | 3 => simp
      | k + 4 => simp, by simp [gammaFn]⟩

theorem gammaFn_plain : gammaFn.Plain := by
  refine ⟨?_, by simp [gammaFn]⟩
  intro a s t b h
  have h' : [Tok.ident "pub", .ident "fn"] = a ++ Tok.ident s :: t :: b := h
  cases a with
  | nil =>
    simp only [List.nil_append, List.cons.injEq] at h'
    rw [← h'.2.1]
    rfl
  | cons x a =>
    have := congrArg List.length h'
    simp at this
    omega

/-- `#[invert(gamma_inv, skip)]`: `skip` is passed on, `ra` is a register -/
example : expandInvert (AttrSpec.text ⟨some "gamma_inv", ["skip"]⟩) gammaFn.text =
    .ok ⟨gammaFn.head (.ident "gamma_inv"), "gamma", "b", [("skip", false), ("ra", true)]⟩ :=
  C95_read_partial gammaFn ⟨some "gamma_inv", ["skip"]⟩ gammaFn_good gammaFn_plain (by simp)

end Verif.Props
