import Verif.Spec

/-!
# Itineraries and saddle connections of interval exchange transformations

Specification only, nothing of this is part of the code.
-/

namespace Verif

variable {P : Type} [CommRing P] [LinearOrder P]

/-- The orbit of `x` visits the intervals `w` and then gets to `y`. -/
def AIET.Path (E : AIET P) : List Label → P → P → Prop
  | [], x, y => x = y
  | a :: w, x, y => ∃ z, E.MapsBy a x z ∧ E.Path w z y

/-- The points `x` and `y` are periodic and their orbits visit the same intervals in the same order. -/
def AIET.Twins (E : AIET P) (x y : P) : Prop := ∃ w, w ≠ [] ∧ E.Path w x x ∧ E.Path w y y

/-- The point `x` is in the interior of an interval of the top. -/
def AIET.Inner (E : AIET P) (x : P) : Prop := ∃ a ∈ E.top, off E.len E.top a < x ∧ x < off E.len E.top a + E.len a

/-- There is a saddle connection from the right end point of the bottom interval `b` to the right end point of the top interval `t`, i.e.,
the orbit of the former gets to the latter and all its points before are in the interior of intervals, i.e., there is no other end point of
an interval in between. -/
def AIET.Saddle (E : AIET P) (b t : Label) : Prop :=
  b ∈ E.bottom.dropLast ∧ t ∈ E.top.dropLast ∧
    Relation.ReflTransGen (fun x z => E.Inner x ∧ E.Maps x z) (E.rightBottom b) (E.rightTop t)

end Verif
