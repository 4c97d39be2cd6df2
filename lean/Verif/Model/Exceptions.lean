import Verif.Model.World

/-!
# Calls that throw: the state they leave behind

In the rest of the model a call that fails returns an `Err` and nothing else.  A user can catch the exception and go on using the IET, so here
the functions that call `coefficients()` are modelled together with the state that they leave behind when they throw.  The functions are the
ones of `Verif.Model.IET`, statement by statement; all assignments made before the exception stay in effect.  Exceptions for lack of
memory are not modelled.
-/

namespace Verif

/-- What a call returns or throws, and the state of the objects afterwards. (interval_exchange_transformation.cc:117-271) -/
abbrev Outcome (S α : Type) := M α × S

namespace Outcome

variable {S α β : Type}

/-- A call which changes its objects only if it returns. (interval_exchange_transformation.cc:117-271) -/
def atomic (x : M (α × S)) (before : S) : Outcome S α :=
  match x with
  | .ok (a, after) => (.ok a, after)
  | .error e => (.error e, before)

/-- Go on with the next statement unless there was an exception. (interval_exchange_transformation.cc:117-271) -/
def next (x : Outcome S α) (k : α → S → Outcome S β) : Outcome S β :=
  match x with
  | (.ok a, s) => k a s
  | (.error e, s) => (.error e, s)

end Outcome

namespace IET

variable {σ T : Type} [CommRing T] [LinearOrder T]

/-- interval_exchange_transformation.cc:417-438: the cache is assigned in line 423 or 427.  Both come after the calls to `coefficients()` in
lines 419 and 425 (`translations()`, that is lines 457-466, 449-455, and 445-447); both calls see the same labels and lengths, so `wedge` in line 430 gets
vectors of the same size and does not throw. -/
def safX (O : LengthsOps σ T) (E : IET T) (s : σ) : Outcome (IET T) (List ℚ) := Outcome.atomic (E.saf O s) E

/-- interval_exchange_transformation.cc:440-443 -/
def saf0X (O : LengthsOps σ T) (E : IET T) (s : σ) : Outcome (IET T) Bool :=
  (E.safX O s).next fun v E => (.ok (v.all (fun c => c = 0)), E)

/-- interval_exchange_transformation.cc:117-123 -/
def safInvariantX (O : LengthsOps σ T) (E : IET T) (s : σ) : Outcome (IET T) (List ℚ) :=
  (E.safX O s).next fun v E => (.ok (if E.swapped then v.map (fun c => -c) else v), E)

/-- interval_exchange_transformation.cc:134-138: the part that follows the check of the SAF invariant; it changes nothing. -/
def boshernitzanSpace (L : PPL) (O : LengthsOps σ T) (E : IET T) (s : σ) : M Bool := do
  let relations ← E.boshernitzanEquations O s
  let space ← Subspace.ofEquations relations (List.replicate relations.length 0)
  return !(← space.hasNonZeroNonNegativeVector L)

/-- interval_exchange_transformation.cc:125-138: line 126 can fill the cache of the SAF invariant, line 134 can throw afterwards. -/
def boshernitzanNoPeriodicTrajectoryX (L : PPL) (O : LengthsOps σ T) (E : IET T) (s : σ) : Outcome (IET T) Bool :=
  (E.saf0X O s).next fun zero E =>
    if zero then (.ok false, E)
    else if E.size ≤ 1 then (.ok false, E)
    else (E.boshernitzanSpace L O s, E)

/-- interval_exchange_transformation.cc:211-220: `SimilarityTracker::loop` (similarity_tracker.cc:25-70) does not call `coefficients()`. -/
def trackStepX (O : LengthsOps σ T) (saf0 : Bool) (E : IET T) (s : σ) : Outcome (IET T) Bool :=
  if saf0 then
    (E.safX O s).next fun v E =>
      if v.length = 0 then (.ok false, E)
      else Outcome.atomic (E.trackerLoop O s) E
  else (.ok false, E)

/-- interval_exchange_transformation.cc:210-229: the loop; the first argument is the number of iterations left.  `zorichInduction`
(lines 273-304) does not call `coefficients()`. -/
def induceLoopX (O : LengthsOps σ T) (saf0 : Bool) : ℕ → IET T → σ → Outcome (IET T × σ) LoopEnd
  | 0, E, s => (.ok .exhausted, E, s)
  | n + 1, E, s =>
    match E.trackStepX O saf0 s with
    | (.error e, E) => (.error e, E, s)
    | (.ok true, E) => (.ok .autoSimilar, E, s)
    | (.ok false, E) =>
      (Outcome.atomic (E.zorichInduction O s) (E, s)).next fun found S =>
        if found then (.ok .found, S)
        else
          (Outcome.atomic (S.1.swap.zorichInduction O S.2) (S.1.swap, S.2)).next fun found S =>
            if found then (.ok .found, S.1.swap, S.2)
            else induceLoopX O saf0 n S.1.swap S.2

/-- interval_exchange_transformation.cc:207-230: the loop for the given limit, and the check of the SAF invariant before it. -/
def inducePhaseX (O : LengthsOps σ T) (fuel : ℕ) (limit : ℤ) (E : IET T) (s : σ) : Outcome (IET T × σ) LoopEnd :=
  if limit = 0 then (.ok .exhausted, E, s)
  else
    match E.saf0X O s with
    | (.error e, E) => (.error e, E, s)
    | (.ok zero, E) =>
      if limit = -1 then
        (induceLoopX O zero fuel E s).next fun r S => if r = .exhausted then (.error .fuel, S) else (.ok r, S)
      else
        induceLoopX O zero limit.toNat E s

/-- interval_exchange_transformation.cc:232-270: what happens after the loop. -/
def induceFinishX (L : PPL) (O : LengthsOps σ T) (found : Bool) (E : IET T) (s : σ) : Outcome (IET T) (InductionStep T) :=
  (Outcome.atomic (E.reduce O s) E).next fun right E =>
    match right with
    | some right =>
      match E.bottom.getLast?, E.top.getLast? with
      | some b, some t => (.ok { result := .separatingConnection, connection := some (b, t), additional := some right }, E)
      | _, _ => (.error .ub, E)
    | none =>
      match E.top, E.bottom with
      | t :: top, b :: bottom =>
        match O.cmp2 t b s with
        | .error e => (.error e, E)
        | .ok cmp =>
          if cmp = 0 then
            (.ok { result := .nonSeparatingConnection, connection := some (b, t) },
              { E with top := top, bottom := mergeBottom b t bottom })
          else if found then (.error .assertFailed, E)
          else
            (E.boshernitzanNoPeriodicTrajectoryX L O s).next fun bosh E =>
              if bosh then (.ok { result := .withoutPeriodicTrajectoryBoshernitzan }, E)
              else (.ok { result := .limitReached }, E)
      | _, _ => (.error .ub, E)

/-- interval_exchange_transformation.cc:198-271 -/
def induceX (L : PPL) (O : LengthsOps σ T) (fuel : ℕ) (limit : ℤ) (E : IET T) (s : σ) : Outcome (IET T × σ) (InductionStep T) :=
  if E.size = 1 then (.ok { result := .cylinder }, E, s)
  else
    (E.inducePhaseX O fuel limit s).next fun loopEnd S =>
      if loopEnd = .autoSimilar then (.ok { result := .withoutPeriodicTrajectoryAutoSimilar }, S)
      else
        let (r, E) := S.1.induceFinishX L O (loopEnd = .found) S.2
        (r, E, S.2)

end IET

namespace Op

variable {σ T : Type} [CommRing T] [LinearOrder T]

/-- Run an operation on an IET (intervalxt/interval_exchange_transformation.hpp:51-118): what is split off or thrown, and the IET and the
lengths afterwards. -/
def callX (L : PPL) (O : LengthsOps σ T) (fuel : ℕ) : Op → IET T → σ → Outcome (IET T × σ) (List (IET T))
  | zorichInduction _, E, s => (Outcome.atomic (E.zorichInduction O s) (E, s)).next fun _ S => (.ok [], S)
  | swap _, E, s => (.ok [], E.swap, s)
  | reduce _, E, s =>
    let (r, E) := Outcome.atomic (E.reduce O s) E
    (r.map Option.toList, E, s)
  | induce _ limit, E, s => (E.induceX L O fuel limit s).next fun step S => (.ok step.additional.toList, S)
  | safInvariant _, E, s =>
    let (r, E) := E.safInvariantX O s
    (r.map (fun _ => []), E, s)
  | boshernitzanNoPeriodicTrajectory _, E, s =>
    let (r, E) := E.boshernitzanNoPeriodicTrajectoryX L O s
    (r.map (fun _ => []), E, s)

/-- Run an operation in a world (interval_exchange_transformation.hpp:51-118), an exception is caught by the user.  An operation on an IET that does
not exist is skipped. -/
def execX (L : PPL) (O : LengthsOps σ T) (fuel : ℕ) (op : Op) (w : World σ T) : Outcome (World σ T) Unit :=
  match w.pieces[op.index]? with
  | none => (.ok (), w)
  | some E =>
    match op.callX L O fuel E w.lengths with
    | (.ok new, E, s) => (.ok (), ⟨w.pieces.set op.index E ++ new, s⟩)
    | (.error e, E, s) => (.error e, ⟨w.pieces.set op.index E, s⟩)

end Op

end Verif
