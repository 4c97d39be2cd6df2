import Verif.Model.IET

/-!
# `induce` with the counter of its loop

The counter `i` in `induce` is an `int`.  In `Verif/Model/IET.lean` it is unbounded.  Here, incrementing it beyond the range of `int` is undefined behaviour.
-/

namespace Verif.IET

variable {σ T : Type}

/-- The largest `int`. (interval_exchange_transformation.cc:210) -/
def intMax : ℤ := 2147483647

/-- src/interval_exchange_transformation.cc:210-229: the loop, with its condition in line 210 and with `i++`.  No call needs more than `2 ^ 31` iterations, see
`induceLoopInt_limited`, `induceLoopInt_unlimited`. -/
def induceLoopInt [CommRing T] [LinearOrder T] (O : LengthsOps σ T) (saf0 : Bool) (limit : ℤ) : ℕ → ℤ → IET T → σ → M (LoopEnd × IET T × σ)
  | 0, _, _, _ => .error .fuel
  | n + 1, i, E, s =>
    if limit = -1 ∨ i < limit then do
      let (loop, E) ← E.trackStep O saf0 s
      if loop then return (.autoSimilar, E, s)
      else
        let (found, E, s) ← E.zorichInduction O s
        if found then return (.found, E, s)
        else
          let (found, E, s) ← E.swap.zorichInduction O s
          if found then return (.found, E.swap, s)
          else if i = intMax then .error .ub
          else induceLoopInt O saf0 limit n (i + 1) E.swap s
    else .ok (.exhausted, E, s)

/-- src/interval_exchange_transformation.cc:205-230 -/
def inducePhaseInt [CommRing T] [LinearOrder T] (O : LengthsOps σ T) (limit : ℤ) (E : IET T) (s : σ) : M (LoopEnd × IET T × σ) :=
  if limit = 0 then .ok (.exhausted, E, s)
  else do
    let (zero, E) ← E.saf0 O s
    induceLoopInt O zero limit (2 ^ 31) 0 E s

/-- src/interval_exchange_transformation.cc:198-271.  There is no fuel anymore. -/
def induceInt [CommRing T] [LinearOrder T] (L : PPL) (O : LengthsOps σ T) (limit : ℤ) (E : IET T) (s : σ) : M (InductionStep T × IET T × σ) := do
  if E.size = 1 then return ({ result := .cylinder }, E, s)
  else
    let (loopEnd, E, s) ← E.inducePhaseInt O limit s
    if loopEnd = .autoSimilar then return ({ result := .withoutPeriodicTrajectoryAutoSimilar }, E, s)
    else
      let (step, E) ← E.induceFinish L O (loopEnd = .found) s
      return (step, E, s)

end Verif.IET
