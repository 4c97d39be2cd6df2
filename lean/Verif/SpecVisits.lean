import Verif.Spec
import Mathlib.LinearAlgebra.Matrix.Determinant.Basic

/-!
# How often intervals are visited

Specification only, nothing of this is part of the code.
-/

namespace Verif

/-- How `x` and `y` cross: 1 if `y` only comes before `x` in the bottom, -1 if `y` only comes before `x` in the top. -/
def AIET.crossing {P : Type} (E : AIET P) (x y : Label) : ℤ :=
  (if E.bottom.idxOf y < E.bottom.idxOf x then 1 else 0) - (if E.top.idxOf y < E.top.idxOf x then 1 else 0)

/-- The matrix of crossings of the labels in `S`: The intersection form of the surface on which the IET is a first return map. -/
def AIET.form {P : Type} (E : AIET P) (S : Finset Label) : Matrix S S ℤ := Matrix.of (fun x y => E.crossing x y)

/-- How often the intervals, the rows, show up in the itineraries `w` of the intervals, the columns. -/
def visits (S : Finset Label) (w : Label → List Label) : Matrix S S ℤ := Matrix.of (fun x y => ((w y).count x.1 : ℤ))

/-- The IET `B` has the same labels as the IET `A` and is its first return map to `[δ, δ + total B)`; the itineraries of its intervals are `w`.  The number of visits to
intervals is a unimodular matrix which transforms the intersection form of `A` to that of `B`. -/
structure Unwinds {P : Type} [CommRing P] [LinearOrder P] (A : AIET P) (δ : P) (B : AIET P) (w : Label → List Label) : Prop where
  labels : B.top.Perm A.top
  range : 0 ≤ δ ∧ δ + B.total = A.total
  towers : Towers A [(δ, B)] w
  det : (visits A.top.toFinset w).det = 1
  form : B.form A.top.toFinset = (visits A.top.toFinset w).transpose * A.form A.top.toFinset * visits A.top.toFinset w

end Verif
