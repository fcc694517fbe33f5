import Verif.Model.Parse

/-!
# The text of `#[invert]`

Models what `#[invert]` reads off its attribute and the function it is put on, and the head of the function it writes
(`qip-macros/src/lib.rs` L371-510). The body it writes (L512-531) is modelled by `invertFn` in `Verif.Model.Sub`.
-/

namespace Verif

/-- what the macro works out -/
structure InvertText where
  /-- the new function up to its body: what `output_stream` has after the original function -/
  head : List Tok
  /-- the function that is called, L398, L408 -/
  function : String
  /-- the name of the builder, L460 -/
  builder : String
  /-- the other arguments in order, and whether they are taken for registers, L463-474, L492-502 -/
  args : List (String × Bool)

/-- the loop over the arguments that are not registers, lib.rs L382-387 -/
def parseSkips : List Tok → List String
  | .ident s :: .punct _ _ :: rest => s :: parseSkips rest
  | .ident s :: rest => s :: parseSkips rest
  | _ => []

/-- the attribute: the new name and the arguments that are not registers, lib.rs L375-390 -/
def parseAttr : List Tok → Option Tok × List String
  | [] => (none, [])
  | t :: .punct _ _ :: rest => (some t, parseSkips rest)
  | t :: rest => (some t, parseSkips rest)

/-- a token that marks the end of a function's name: parenthesis or `<`, lib.rs L397, L407 -/
def opensName : Tok → Bool
  | .group .paren _ => true
  | .punct c _ => c == '<'
  | _ => false

/-- the first loop, lib.rs L392-425: what is copied, the name of the function if there is one, and the remaining stream -/
def findName : List Tok → List Tok × Option String × List Tok
  | [] => ([], none, [])
  | .ident s :: t :: rest =>
    if opensName t then ([], some s, t :: rest)
    else (.ident s :: (findName (t :: rest)).1, (findName (t :: rest)).2)
  | t :: rest => (t :: (findName rest).1, (findName rest).2)

/-- the second loop, lib.rs L427-445: what is copied, the arguments and the remaining stream -/
def findArgs : List Tok → List Tok × List String × List Tok
  | [] => ([], [], [])
  | .group .paren ts :: rest => ([.group .paren ts], parseFunctionArgs ts, rest)
  | t :: rest => (t :: (findArgs rest).1, (findArgs rest).2)

/-- the third loop, lib.rs L447-458: everything before the first group in braces -/
def untilBrace : List Tok → List Tok
  | [] => []
  | .group .brace _ :: _ => []
  | t :: rest => t :: untilBrace rest

/-- `invert`, lib.rs L371-474: `function_args[0]` panics if no argument has been found. If no function is found, the name stays `foo` and no new
name is written. -/
def expandInvert (attr item : List Tok) : Except Fail InvertText :=
  let (newName, skips) := parseAttr attr
  let (pre, name, rest) := findName item
  let named := match name with
    | none => []
    | some f => [newName.getD (.ident (f ++ "_inv"))]
  let (mid, args, rest) := findArgs rest
  match args with
  | [] => .error .panic
  | b :: args => .ok ⟨pre ++ named ++ mid ++ untilBrace rest, name.getD "foo", b, args.map fun s => (s, !skips.contains s)⟩

end Verif
