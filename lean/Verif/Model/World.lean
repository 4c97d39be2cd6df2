import Verif.Model.IET

/-!
# Histories of API calls

Several IETs that share one `Lengths` object, and a user calling operations on them.  New IETs come from
`reduce()` and `induce()`, they share the lengths with the IET they have been split off from
(interval_exchange_transformation.cc:346-358 passes on the same `shared_ptr`).
-/

namespace Verif

/-- The IETs a user holds and the state of the lengths shared by them. (interval_exchange_transformation.hpp:39-118) -/
structure World (σ T : Type) where
  pieces : List (IET T)
  lengths : σ

/-- The calls a user can make (intervalxt/interval_exchange_transformation.hpp:51-118); the number selects the IET. -/
inductive Op
  | zorichInduction (i : ℕ)
  | swap (i : ℕ)
  | reduce (i : ℕ)
  | induce (i : ℕ) (limit : ℤ)
  | safInvariant (i : ℕ)
  | boshernitzanNoPeriodicTrajectory (i : ℕ)
  deriving DecidableEq, Repr

namespace Op

/-- The IET an operation is called on. (interval_exchange_transformation.hpp:39-118) -/
def index : Op → ℕ
  | zorichInduction i | swap i | reduce i | induce i _ | safInvariant i | boshernitzanNoPeriodicTrajectory i => i

/-- Whether the operation is an explicit `swap()`. (interval_exchange_transformation.cc:289-292) -/
def isSwap : Op → Bool
  | swap _ => true
  | _ => false

variable {σ T : Type} [CommRing T] [LinearOrder T]

/-- Run an operation on an IET: the IET split off (if any), the IET after the call, and the lengths. (interval_exchange_transformation.cc:79-360) -/
def call (L : PPL) (O : LengthsOps σ T) (fuel : ℕ) : Op → IET T → σ → M (List (IET T) × IET T × σ)
  | zorichInduction _, E, s => do
    let (_, E, s) ← E.zorichInduction O s
    return ([], E, s)
  | swap _, E, s => .ok ([], E.swap, s)
  | reduce _, E, s => do
    let (R, E) ← E.reduce O s
    return (R.toList, E, s)
  | induce _ limit, E, s => do
    let (step, E, s) ← E.induce L O fuel limit s
    return (step.additional.toList, E, s)
  | safInvariant _, E, s => do
    let (_, E) ← E.safInvariant O s
    return ([], E, s)
  | boshernitzanNoPeriodicTrajectory _, E, s => do
    let (_, E) ← E.boshernitzanNoPeriodicTrajectory L O s
    return ([], E, s)

/-- Run an operation in a world.  An operation on an IET that does not exist is skipped. (interval_exchange_transformation.cc:79-360) -/
def exec (L : PPL) (O : LengthsOps σ T) (fuel : ℕ) (op : Op) (w : World σ T) : M (World σ T) :=
  match w.pieces[op.index]? with
  | none => .ok w
  | some E => do
    let (new, E, s) ← op.call L O fuel E w.lengths
    return ⟨w.pieces.set op.index E ++ new, s⟩

end Op

end Verif
