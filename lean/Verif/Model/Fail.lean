/-! How a call can fail to return normally. -/

namespace Verif

/-- `error`: the call returns `Err(CircuitError)` (qip/src/errors.rs L6-22; the message is not modelled).
`panic`: the call panics. -/
inductive Fail where
  | error
  | panic
deriving DecidableEq, Repr

/-- a panic of an `Option`-modelled helper, seen from a function returning `Result` -/
def orPanic {α : Type} : Option α → Except Fail α
  | none => .error .panic
  | some a => .ok a

end Verif
