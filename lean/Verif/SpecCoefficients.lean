import Mathlib.Algebra.Field.Basic
import Mathlib.Algebra.BigOperators.Group.List.Basic
import Mathlib.Data.Rat.Cast.CharZero

/-!
# Specification: rational coordinates of numbers
-/

namespace Verif

variable {T : Type} [Field T]

/-- The number with rational coordinates `q` over `b`. -/
def combine (q : List ℚ) (b : List T) : T := ((q.zip b).map (fun p => (p.1 : T) * p.2)).sum

/-- There are no rational relations. -/
def Independent (b : List T) : Prop := ∀ q : List ℚ, q.length = b.length → combine q b = 0 → ∀ r ∈ q, r = 0

/-- The vectors `vs` are the coordinates of `values` over some numbers `b` without rational relations, the same for all the values. -/
def AreCoordinates (values : List T) (vs : List (List ℚ)) : Prop :=
  ∃ b : List T, Independent b ∧ List.Forall₂ (fun x v => v.length = b.length ∧ x = combine v b) values vs

end Verif
