import Verif.SpecBasis
import Verif.Model.Exceptions

/-!
# Specification: coefficients that cannot always be computed
-/

namespace Verif

variable {σ T ε : Type} [CommRing T] [LinearOrder T] {O : LengthsOps σ T} {d : ℕ} {c : T →+ (Fin d → ℚ)}

/-- An exception that can be caught, in contrast to undefined behaviour, failed assertions and calls that do not return. -/
def Err.Exception : Err → Prop
  | .outOfRange | .invalidArgument | .logicError => True
  | .assertFailed | .ub | .fuel => False

/-- The function `f` throws the exception `e` for some labels and lengths. -/
def Throws (f : List Label → σ → M (List (List ℚ))) (e : Err) : Prop := ∃ l s, f l s = .error e

/-- What `x` returns or throws is the same as for `y`, unless it throws an exception with the property `P`. -/
def SameUnless {α : Type} (P : Err → Prop) (x y : M α) : Prop := x = y ∨ ∃ e, P e ∧ x = .error e

/-- In every call `f` either throws an exception or returns coordinates. -/
def LawfulLengths.CoordinatesOrException (H : LawfulLengths O c ε) (f : List Label → σ → M (List (List ℚ))) : Prop :=
  (∀ e, Throws f e → e.Exception) ∧
  ∀ s l, H.inv s → (∀ x ∈ l, H.dom s x) → l.Nodup → (∃ e, f l s = .error e) ∨ ∃ (d' : ℕ) (w : Label → Fin d' → ℚ),
    f l s = .ok (l.map (fun x => List.ofFn (w x))) ∧
    ∀ n : Label → ℤ, (l.map (fun x => n x • w x)).sum = 0 ↔ (l.map (fun x => n x • H.len s x)).sum = 0

/-- The states a user can reach who catches all exceptions: newly constructed valid IETs with different labels that share their lengths, followed by any
API calls that return or throw.  (A call for which the outcome is `fuel` does neither.) -/
inductive CatchReach (H : LawfulLengths O c ε) (f : List Label → σ → M (List (List ℚ))) (L : PPL) : World σ T → Prop
  | init {pieces : List (IET T)} {s : σ} : (∀ E ∈ pieces, E = IET.fresh E.top E.bottom ∧ H.Ok E s) →
      pieces.Pairwise (fun E F => ∀ a ∈ E.top, a ∉ F.top) → CatchReach H f L ⟨pieces, s⟩
  | call {w w' : World σ T} {r : M Unit} (fuel : ℕ) (op : Op) : CatchReach H f L w → op.execX L (O.rebase f) fuel w = (r, w') →
      r ≠ .error .fuel → CatchReach H f L w'

/-- Two IETs have the same labels, in the same order, and the same orientation. -/
def IET.SameLabels (E F : IET T) : Prop := E.top = F.top ∧ E.bottom = F.bottom ∧ E.swapped = F.swapped

end Verif
