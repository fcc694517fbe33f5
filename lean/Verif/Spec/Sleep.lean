import Verif.Spec.Steady

/-! # Specification: methods inside conditions that are not met -/

namespace Verif

/-- The methods that honour the conditions they are called in. Rotations are not conditioned at all (C37), nor is the Fourier transform,
which uses them; and what `return_temp_register` leaves behind is as good as the register given to it. -/
def Method.Dozes : Method → Prop
  | .rz _ | .rx _ | .ry _ | .rzRatio _ | .rxRatio _ | .ryRatio _ | .rzPiBy _ | .rxPiBy _ | .ryPiBy _ | .returnTemp | .qfft => False
  | _ => True

/-- the objects the caller gives to a method -/
def Method.given : Method → List CObj
  | .tryCond c => [c]
  | m => m.objects

/-- no rotation about `z` -/
def NoRz (c : CObj) : Prop := ∀ ρ, c.object ≠ .unitary (.Rz ρ)

end Verif
