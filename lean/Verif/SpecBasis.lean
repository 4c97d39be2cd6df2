import Verif.Contract
import Verif.Model.Connections

/-!
# Specification: coefficients with respect to bases which depend on the lengths

What a call to `coefficients()` returns are the coordinates of the given lengths over some basis.  Which basis is used can differ from call to
call: for elements of number fields it depends on the parents of the elements given (libintervalxt/intervalxt/sample/renf_elem_coefficients.hpp:40-50)
and for elements of modules it is a basis of the span of their modules (libintervalxt/intervalxt/sample/element_coefficients.hpp:44-46).
-/

namespace Verif

variable {σ T ε : Type} [CommRing T] [LinearOrder T] {O : LengthsOps σ T} {d : ℕ} {c : T →+ (Fin d → ℚ)}

/-- The same lengths with another function `coefficients`. -/
def LengthsOps.rebase (O : LengthsOps σ T) (f : List Label → σ → M (List (List ℚ))) : LengthsOps σ T := { O with coefficients := f }

/-- `f` returns coordinates: rational vectors of a common size that satisfy the same linear relations over the integers as the lengths.  Size and
basis can be chosen anew in every call. -/
def LawfulLengths.Coordinates (H : LawfulLengths O c ε) (f : List Label → σ → M (List (List ℚ))) : Prop :=
  ∀ s l, H.inv s → (∀ x ∈ l, H.dom s x) → l.Nodup → ∃ (d' : ℕ) (w : Label → Fin d' → ℚ),
    f l s = .ok (l.map (fun x => List.ofFn (w x))) ∧
    ∀ n : Label → ℤ, (l.map (fun x => n x • w x)).sum = 0 ↔ (l.map (fun x => n x • H.len s x)).sum = 0

end Verif
