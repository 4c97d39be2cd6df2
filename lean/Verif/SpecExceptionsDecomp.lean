import Verif.SpecExceptions
import Verif.ReachDecomp
import Verif.Model.ExceptionsDecomp

/-!
# Specification: decompositions of a user who catches exceptions
-/

namespace Verif

variable {σ T : Type} [CommRing T] [LinearOrder T]

/-- `DCatch L O E s D steps`: like `DReach`, but calls of `decompositionStep` may throw and the user catches the exceptions; `steps` is what the calls returned
that did return. -/
inductive DCatch (L : PPL) (O : LengthsOps σ T) (E : IET T) (s : σ) : Decomp σ T → List DStep → Prop
  | init {D : Decomp σ T} : Decomp.make O E s = .ok D → DCatch L O E s D []
  | step {D D' : Decomp σ T} {steps : List DStep} {step : DStep} (fuel : ℕ) (limit : ℤ) (i : ℕ) : DCatch L O E s D steps →
      D.decompositionStepX L O fuel limit i = (.ok step, D') → DCatch L O E s D' (steps ++ [step])
  | throw {D D' : Decomp σ T} {steps : List DStep} {e : Err} (fuel : ℕ) (limit : ℤ) (i : ℕ) : DCatch L O E s D steps →
      D.decompositionStepX L O fuel limit i = (.error e, D') → e.Exception → DCatch L O E s D' steps

end Verif
