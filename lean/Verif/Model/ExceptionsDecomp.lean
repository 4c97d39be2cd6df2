import Verif.Model.Exceptions
import Verif.Model.Decomposition

/-!
# Decompositions: the state that calls leave behind when they throw

The functions of `Verif.Model.Decomposition` that call `coefficients()`, together with the state of the decomposition after an exception; see
`Verif.Model.Exceptions`.
-/

namespace Verif

namespace Decomp

variable {σ T : Type} [CommRing T] [LinearOrder T]

/-- component.cc:344-356 -/
def boshernitzanCostX (O : LengthsOps σ T) (E : IET T) (s : LWC σ) : Outcome (IET T) (Option ℤ) :=
  (E.safInvariantX (LWC.ops O) s).next fun saf E => (.ok (if saf.all (fun v => v = 0) then none else some 64), E)

/-- component.cc:186-203: the loop, at most the given number of rounds.  Line 202 calls `induce` of the IET of the component. -/
def chunksX (L : PPL) (O : LengthsOps σ T) (cost : Option ℤ) : ℕ → ℤ → IET T → LWC σ → Outcome (IET T × LWC σ) (InductionStep T)
  | 0, _, E, s => (.error .fuel, E, s)
  | n + 1, limit, E, s =>
    let steps := chunkSize cost limit
    (E.induceX L (LWC.ops O) 0 steps s).next fun step S =>
      if step.result = .limitReached ∧ limit - steps ≠ 0 then chunksX L O cost n (limit - steps) S.1 S.2
      else (.ok step, S)

/-- component.cc:165-287 for a limit other than -1.  The part after the loop, lines 205-286, does not call `coefficients()`. -/
def decompositionStepBoundedX (L : PPL) (O : LengthsOps σ T) (limit : ℤ) (i : ℕ) (D : Decomp σ T) : Outcome (Decomp σ T) DStep :=
  match D.comp i with
  | .error e => (.error e, D)
  | .ok c =>
    if c.cylinder = some true ∧ c.keane = some true then (.error .assertFailed, D)
    else
      let s := { D.lengths with others := D.others i }
      match boshernitzanCostX O c.iet s with
      | (.error e, E) => (.error e, D.setComp i { c with iet := E })
      | (.ok cost, E) =>
        let (r, E, s) := chunksX L O cost (limit.toNat + 1) limit E s
        let D : Decomp σ T := { D.setComp i { c with iet := E } with lengths := s }
        match r with
        | .error e => (.error e, D)
        | .ok step => Outcome.atomic (D.conclude i step) D

/-- component.cc:172-182: the loop for the limit -1, at most the given number of rounds. -/
def unlimitedX (L : PPL) (O : LengthsOps σ T) (cost : Option ℤ) (i : ℕ) : ℕ → ℤ → Decomp σ T → Outcome (Decomp σ T) DStep
  | 0, _, D => (.error .fuel, D)
  | n + 1, limit, D =>
    (D.decompositionStepBoundedX L O limit i).next fun step D =>
      if step.result ≠ .limitReached then (.ok step, D)
      else match cost with
        | some c => unlimitedX L O cost i n c D
        | none => if 2 * (limit + 1) ≤ intMax then unlimitedX L O cost i n (2 * (limit + 1)) D else (.error .ub, D)

/-- component.cc:165-287 -/
def decompositionStepX (L : PPL) (O : LengthsOps σ T) (fuel : ℕ) (limit : ℤ) (i : ℕ) (D : Decomp σ T) : Outcome (Decomp σ T) DStep :=
  if limit = -1 then
    match D.comp i with
    | .error e => (.error e, D)
    | .ok c =>
      if c.cylinder = some true ∧ c.keane = some true then (.error .assertFailed, D)
      else
        match boshernitzanCostX O c.iet D.lengths with
        | (.error e, E) => (.error e, D.setComp i { c with iet := E })
        | (.ok cost, E) => unlimitedX L O cost i fuel 0 (D.setComp i { c with iet := E })
  else D.decompositionStepBoundedX L O limit i

/-- component.cc:444-464, see `decomposeComponent`. -/
def decomposeComponentX (L : PPL) (O : LengthsOps σ T) (target : Comp T → Bool) (limit : ℤ) : ℕ → ℕ → Decomp σ T → Outcome (Decomp σ T) Bool
  | 0, _, D => (.error .fuel, D)
  | n + 1, i, D =>
    match D.comp i with
    | .error e => (.error e, D)
    | .ok c =>
      if target c then (.ok true, D)
      else
        (D.decompositionStepX L O n limit i).next fun step D =>
          if step.result = .limitReached then (.ok false, D)
          else match step.additional with
            | some j =>
              (D.decomposeComponentX L O target limit n j).next fun x D =>
                (D.decomposeComponentX L O target limit n i).next fun y D => (.ok (x && y), D)
            | none => D.decomposeComponentX L O target limit n i

/-- The loop of dynamical_decomposition.cc:67 (`std::all_of`). -/
def decomposeAllX (L : PPL) (O : LengthsOps σ T) (target : Comp T → Bool) (limit : ℤ) (fuel : ℕ) : List ℕ → Decomp σ T → Outcome (Decomp σ T) Bool
  | [], D => (.ok true, D)
  | i :: is, D =>
    (D.decomposeComponentX L O target limit fuel i).next fun x D =>
      if x then decomposeAllX L O target limit fuel is D else (.ok false, D)

/-- dynamical_decomposition.cc:65-68 -/
def decomposeX (L : PPL) (O : LengthsOps σ T) (target : Comp T → Bool) (limit : ℤ) (fuel : ℕ) (D : Decomp σ T) : Outcome (Decomp σ T) Bool :=
  D.decomposeAllX L O target limit fuel (List.range D.comps.length)

end Decomp

end Verif
