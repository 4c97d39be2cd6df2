import Verif.Spec

/-!
# Minimal interval exchange transformations

Specification only, nothing of this is part of the code.
-/

namespace Verif

variable {P : Type} [CommRing P] [LinearOrder P]

/-- Every orbit visits every open interval, forwards and backwards. -/
def AIET.Minimal (A : AIET P) : Prop := ∀ x u v, 0 ≤ x → x < A.total → 0 ≤ u → u < v → v ≤ A.total →
  (∃ y, Relation.ReflTransGen A.Maps x y ∧ u < y ∧ y < v) ∧ ∃ y, Relation.ReflTransGen A.Maps y x ∧ u < y ∧ y < v

/-- The orbit of the point gets to the piece. -/
def Meets (E : AIET P) (p : P × AIET P) (x : P) : Prop := ∃ y, Relation.ReflTransGen E.Maps x y ∧ Inside p y

end Verif
