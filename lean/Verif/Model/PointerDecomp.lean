import Verif.Model.Pointer
import Verif.Model.Decomposition

/-!
# Model of `DynamicalDecomposition` on the level of list nodes

The IETs of the components are lists of nodes as in `Verif.Model.Pointer`.  Only `induce` and the constructor of IETs follow or change
iterators.  All other functions of components and half edges only read the labels of these lists; they are run on the labels that are
read (`PDecomp.view`).
-/

namespace Verif

/-- `DecompositionState::Component` (libintervalxt/src/impl/decomposition_state.hpp:34-40). -/
structure PComp (T : Type) where
  iet : PIET T
  cylinder : Option Bool := none
  withoutPeriodicTrajectory : Option Bool := none
  keane : Option Bool := none

/-- `DecompositionState` (decomposition_state.hpp:33-67) together with the lengths shared by all its IETs and the memory their nodes
live in. -/
structure PDecomp (σ T : Type) where
  comps : List (PComp T)
  lengths : LWC σ
  mem : Mem

/-- The labels in the lists of a component (component.cc:92-98), and its other members. -/
def PComp.view {T : Type} (m : Mem) (c : PComp T) : M (Comp T) := do
  return ⟨← c.iet.view m, c.cylinder, c.withoutPeriodicTrajectory, c.keane⟩

namespace PDecomp

variable {σ T : Type}

/-- The labels in the lists of all components. (impl/decomposition_state.hpp:64) -/
def view (D : PDecomp σ T) : M (Decomp σ T) := do
  return ⟨← D.comps.mapM (fun c => c.view D.mem), D.lengths⟩

/-- libintervalxt/src/dynamical_decomposition.cc:45-56 and interval_exchange_transformation.cc:486-488: the IET of the first component has
its own nodes. -/
def make [Zero T] [DecidableEq T] (O : LengthsOps σ T) (P : PIET T) (s : σ) (m : Mem) : M (PDecomp σ T) := do
  let E ← P.view m
  let (iet, m) ← PIET.mk? (LWC.ops O) E.top E.bottom ⟨s, [], ⟨[], fun _ => {}⟩, []⟩ m
  return ⟨[{ iet := iet }], ⟨s, [], ⟨E.top, fun _ => {}⟩, []⟩, m⟩

/-- Dereferencing the pointer to a component. (impl/component.impl.hpp:55) -/
def comp (D : PDecomp σ T) (i : ℕ) : M (PComp T) :=
  match D.comps[i]? with
  | some c => .ok c
  | none => .error .ub

/-- Assignment to a component. (component.cc:168) -/
def setComp (D : PDecomp σ T) (i : ℕ) (c : PComp T) : PDecomp σ T := { D with comps := D.comps.set i c }

/-- component.cc:186-203, see `Decomp.chunks`. -/
def chunks [CommRing T] [LinearOrder T] (L : PPL) (O : LengthsOps σ T) (cost : Option ℤ) :
    ℕ → ℤ → PIET T → LWC σ → Mem → M (PStep T × PIET T × LWC σ × Mem)
  | 0, _, _, _, _ => .error .fuel
  | n + 1, limit, P, s, m => do
    let steps := Decomp.chunkSize cost limit
    let (step, P, s, m) ← P.induce L (LWC.ops O) 0 steps s m
    if step.result = .limitReached ∧ limit - steps ≠ 0 then chunks L O cost n (limit - steps) P s m
    else return (step, P, s, m)

/-- component.cc:214-232 with dynamical_decomposition.cc:76-85, see `Decomp.separating`. -/
def separating (D : PDecomp σ T) (i : ℕ) (b t : Label) (additional : PIET T) : M (DStep × PDecomp σ T) := do
  let V ← D.view
  let c ← V.comp i
  let equivalent ← V.walkClockwise 4 ⟨i, ← Decomp.lastM c.bottomContour, false⟩ ⟨i, ← Decomp.lastM c.topContour, true⟩
  let connection : Conn := ⟨← V.makeAtBottom b, ← V.makeAtTop t⟩
  let j := D.comps.length
  let D : PDecomp σ T := { D with comps := D.comps ++ [{ iet := additional }] }
  let V ← (← D.view).registerSeparating i connection j
  return ({ result := .separatingConnection, connection := some connection, equivalent := some equivalent, additional := some j },
    { D with lengths := V.lengths })

/-- component.cc:233-275, see `Decomp.nonSeparating`; the IET is not changed. -/
def nonSeparating (D : PDecomp σ T) (i : ℕ) (b t : Label) : M (DStep × PDecomp σ T) := do
  let (step, V) ← (← D.view).nonSeparating i b t
  return (step, { D with lengths := V.lengths })

/-- component.cc:205-286, see `Decomp.conclude`. -/
def conclude (D : PDecomp σ T) (i : ℕ) (step : PStep T) : M (DStep × PDecomp σ T) := do
  let c ← D.comp i
  match step.result, step.connection, step.additional with
  | .limitReached, _, _ => return ({ result := .limitReached }, D)
  | .cylinder, _, _ =>
    return ({ result := .cylinder }, D.setComp i { c with cylinder := some true, withoutPeriodicTrajectory := some false, keane := some false })
  | .separatingConnection, some (b, t), some additional => D.separating i b t additional
  | .nonSeparatingConnection, some (b, t), _ => D.nonSeparating i b t
  | .withoutPeriodicTrajectoryBoshernitzan, _, _ =>
    return ({ result := .withoutPeriodicTrajectoryBoshernitzan },
      D.setComp i { c with withoutPeriodicTrajectory := some true, cylinder := some false })
  | .withoutPeriodicTrajectoryAutoSimilar, _, _ =>
    return ({ result := .withoutPeriodicTrajectoryAutoSimilar },
      D.setComp i { c with withoutPeriodicTrajectory := some true, cylinder := some false })
  | _, _, _ => .error .ub

/-- component.cc:165-287 for a limit other than -1, see `Decomp.decompositionStepBounded`. -/
def decompositionStepBounded [CommRing T] [LinearOrder T] (L : PPL) (O : LengthsOps σ T) (limit : ℤ) (i : ℕ) (D : PDecomp σ T) :
    M (DStep × PDecomp σ T) := do
  let c ← D.comp i
  assertM (¬ (c.cylinder = some true ∧ c.keane = some true))
  let s := { D.lengths with others := (← D.view).others i }
  let (cost, E) ← Decomp.boshernitzanCost O (← c.iet.view D.mem) s
  let (step, P, s, m) ← chunks L O cost (limit.toNat + 1) limit (c.iet.aux E) s D.mem
  conclude { D.setComp i { c with iet := P } with lengths := s, mem := m } i step

/-- component.cc:172-182, see `Decomp.unlimited`. -/
def unlimited [CommRing T] [LinearOrder T] (L : PPL) (O : LengthsOps σ T) (cost : Option ℤ) (i : ℕ) :
    ℕ → ℤ → PDecomp σ T → M (DStep × PDecomp σ T)
  | 0, _, _ => .error .fuel
  | n + 1, limit, D => do
    let (step, D) ← D.decompositionStepBounded L O limit i
    if step.result ≠ .limitReached then return (step, D)
    else match cost with
      | some c => unlimited L O cost i n c D
      | none => if 2 * (limit + 1) ≤ Decomp.intMax then unlimited L O cost i n (2 * (limit + 1)) D else .error .ub

/-- component.cc:165-287, see `Decomp.decompositionStep`. -/
def decompositionStep [CommRing T] [LinearOrder T] (L : PPL) (O : LengthsOps σ T) (fuel : ℕ) (limit : ℤ) (i : ℕ) (D : PDecomp σ T) :
    M (DStep × PDecomp σ T) := do
  if limit = -1 then
    let c ← D.comp i
    assertM (¬ (c.cylinder = some true ∧ c.keane = some true))
    let (cost, E) ← Decomp.boshernitzanCost O (← c.iet.view D.mem) D.lengths
    unlimited L O cost i fuel 0 (D.setComp i { c with iet := c.iet.aux E })
  else D.decompositionStepBounded L O limit i

/-- component.cc:444-464, see `Decomp.decomposeComponent`; the target sees the labels of a component. -/
def decomposeComponent [CommRing T] [LinearOrder T] (L : PPL) (O : LengthsOps σ T) (target : Comp T → Bool) (limit : ℤ) :
    ℕ → ℕ → PDecomp σ T → M (Bool × PDecomp σ T)
  | 0, _, _ => .error .fuel
  | n + 1, i, D => do
    let c ← D.comp i
    if target (← c.view D.mem) then return (true, D)
    else
      let (step, D) ← D.decompositionStep L O n limit i
      if step.result = .limitReached then return (false, D)
      else match step.additional with
        | some j =>
          let (x, D) ← D.decomposeComponent L O target limit n j
          let (y, D) ← D.decomposeComponent L O target limit n i
          return (x && y, D)
        | none => D.decomposeComponent L O target limit n i

/-- The loop of dynamical_decomposition.cc:67 (`std::all_of`). -/
def decomposeAll [CommRing T] [LinearOrder T] (L : PPL) (O : LengthsOps σ T) (target : Comp T → Bool) (limit : ℤ) (fuel : ℕ) :
    List ℕ → PDecomp σ T → M (Bool × PDecomp σ T)
  | [], D => .ok (true, D)
  | i :: is, D => do
    let (x, D) ← D.decomposeComponent L O target limit fuel i
    if x then decomposeAll L O target limit fuel is D else return (false, D)

/-- dynamical_decomposition.cc:65-68 -/
def decompose [CommRing T] [LinearOrder T] (L : PPL) (O : LengthsOps σ T) (target : Comp T → Bool) (limit : ℤ) (fuel : ℕ)
    (D : PDecomp σ T) : M (Bool × PDecomp σ T) :=
  D.decomposeAll L O target limit fuel (List.range D.comps.length)

/-- component.cc:112-163, see `Decomp.inject`; the IETs are not changed. -/
def inject (D : PDecomp σ T) (h : HalfEdge) (left right : List (Label × Label)) : M ((List Conn × List Conn) × PDecomp σ T) := do
  let (r, V) ← (← D.view).inject h left right
  return (r, { D with lengths := V.lengths })

end PDecomp

end Verif
