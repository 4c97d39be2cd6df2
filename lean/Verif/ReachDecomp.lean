import Verif.Contract
import Verif.Model.Decomposition

/-!
# Reachable decompositions

Specification: which states of a `DynamicalDecomposition` a user can get to.
-/

namespace Verif

variable {σ T : Type} [CommRing T] [LinearOrder T]

/-- `DReach L O E s D steps`: the decomposition `D` has been created from the IET `E` with lengths `s` and then `decompositionStep` has
been called on components, with any limits; `steps` is what the calls returned. -/
inductive DReach (L : PPL) (O : LengthsOps σ T) (E : IET T) (s : σ) : Decomp σ T → List DStep → Prop
  | init {D : Decomp σ T} : Decomp.make O E s = .ok D → DReach L O E s D []
  | step {D D' : Decomp σ T} {steps : List DStep} {step : DStep} (fuel : ℕ) (limit : ℤ) (i : ℕ) : DReach L O E s D steps →
      D.decompositionStep L O fuel limit i = .ok (step, D') → DReach L O E s D' (steps ++ [step])

/-- Replacing each label on the top of the IET by the label that had been at the same place in the state which the similarity tracker
remembers does not change its length, e.g., because the labels are in the same order as they had been then. -/
def IET.Aligned (O : LengthsOps σ T) (E : IET T) (s : σ) : Prop :=
  E.tracker.top.map (fun a => O.get a s) = E.top.map (fun a => O.get a s)

/-- The labels are in the order that the tracker remembers. -/
theorem IET.Aligned.of_eq {O : LengthsOps σ T} {E : IET T} {s : σ} (h : E.tracker.top = E.top) : E.Aligned O s := by
  rw [IET.Aligned, h]

/-- Like `DReach` but whenever WITHOUT_PERIODIC_TRAJECTORY_AUTO_SIMILAR was reported for a component, then that component was aligned with
the earlier state that the similarity tracker of its IET remembers. -/
inductive DReachOrdered (L : PPL) (O : LengthsOps σ T) (E : IET T) (s : σ) : Decomp σ T → List DStep → Prop
  | init {D : Decomp σ T} : Decomp.make O E s = .ok D → DReachOrdered L O E s D []
  | step {D D' : Decomp σ T} {steps : List DStep} {step : DStep} (fuel : ℕ) (limit : ℤ) (i : ℕ) : DReachOrdered L O E s D steps →
      D.decompositionStep L O fuel limit i = .ok (step, D') →
      (step.result = .withoutPeriodicTrajectoryAutoSimilar → ∀ x, D'.comps[i]? = some x → x.iet.Aligned O D'.lengths.inner) →
      DReachOrdered L O E s D' (steps ++ [step])

/-- The connections that have been reported. -/
def reported (steps : List DStep) : List Conn := steps.filterMap (fun s => s.connection)

/-- All half edges of all components. -/
def Decomp.halfEdges (D : Decomp σ T) : List HalfEdge :=
  D.comps.zipIdx.flatMap (fun q => q.1.topContour.map (fun l => ⟨q.2, l, true⟩) ++ q.1.bottomContour.map (fun l => ⟨q.2, l, false⟩))

/-- The half edge, if a side is one. -/
def Side.edge? : Side → Option HalfEdge
  | .edge h => some h
  | .conn _ => none

/-- The connection, if a side is one. -/
def Side.conn? : Side → Option Conn
  | .edge _ => none
  | .conn c => some c

/-- A call on a decomposition: `decompositionStep` of a component, or `inject` at a half edge. -/
inductive DCall where
  | step (fuel : ℕ) (limit : ℤ) (i : ℕ)
  | inject (h : HalfEdge) (left right : List (Label × Label))
  deriving DecidableEq

/-- Whether the call is one of `decompositionStep`. -/
def DCall.isStep : DCall → Bool
  | .step .. => true
  | .inject .. => false

/-- What a call returned. -/
inductive DEvent where
  | step (s : DStep)
  | inject (left right : List Conn)
  deriving DecidableEq

/-- The result of `decompositionStep`. -/
def DEvent.step? : DEvent → Option DStep
  | .step s => some s
  | .inject .. => none

/-- The connections which have been injected on the left. -/
def DEvent.injectedLeft : DEvent → List Conn
  | .step _ => []
  | .inject l _ => l

/-- The connections which have been injected on the right. -/
def DEvent.injectedRight : DEvent → List Conn
  | .step _ => []
  | .inject _ r => r

/-- `IReach L O E s ok D calls events`: the decomposition `D` has been created from the IET `E` with lengths `s` and then `calls` have been performed,
which returned `events`.  All injections satisfy `ok`. -/
inductive IReach (L : PPL) (O : LengthsOps σ T) (E : IET T) (s : σ) (ok : Decomp σ T → HalfEdge → List (Label × Label) → List (Label × Label) → Prop) :
    Decomp σ T → List DCall → List DEvent → Prop
  | init {D : Decomp σ T} : Decomp.make O E s = .ok D → IReach L O E s ok D [] []
  | step {D D' : Decomp σ T} {calls : List DCall} {events : List DEvent} {step : DStep} (fuel : ℕ) (limit : ℤ) (i : ℕ) :
      IReach L O E s ok D calls events → D.decompositionStep L O fuel limit i = .ok (step, D') →
      IReach L O E s ok D' (calls ++ [.step fuel limit i]) (events ++ [.step step])
  | inject {D D' : Decomp σ T} {calls : List DCall} {events : List DEvent} {l r : List Conn} (h : HalfEdge) (left right : List (Label × Label)) :
      IReach L O E s ok D calls events → ok D h left right → D.inject h left right = .ok ((l, r), D') →
      IReach L O E s ok D' (calls ++ [.inject h left right]) (events ++ [.inject l r])

/-- The connections of a list of pairs of labels, from the bottom upwards; the first one starts at the separatrix of the bottom interval `l`. -/
def UpFrom : Label → List (Label × Label) → Prop
  | _, [] => True
  | l, p :: ps => p.1 = l ∧ UpFrom p.2 ps

/-- The connections of a list of pairs of labels, from the top downwards; the first one ends at the separatrix of the top interval `l`. -/
def DownFrom : Label → List (Label × Label) → Prop
  | _, [] => True
  | l, p :: ps => p.2 = l ∧ DownFrom p.1 ps

instance UpFrom.decidable : ∀ (l : Label) (ps : List (Label × Label)), Decidable (UpFrom l ps)
  | _, [] => .isTrue trivial
  | l, p :: ps => by
    have := UpFrom.decidable p.2 ps
    exact inferInstanceAs (Decidable (p.1 = l ∧ UpFrom p.2 ps))

instance DownFrom.decidable : ∀ (l : Label) (ps : List (Label × Label)), Decidable (DownFrom l ps)
  | _, [] => .isTrue trivial
  | l, p :: ps => by
    have := DownFrom.decidable p.1 ps
    exact inferInstanceAs (Decidable (p.2 = l ∧ DownFrom p.1 ps))

/-- `h` is a half edge of the decomposition and, unless it is the last one of its contour, the connections to be injected to its right are above each other
and start at the separatrix next to it. -/
def Consistent (D : Decomp σ T) (h : HalfEdge) (_left right : List (Label × Label)) : Prop :=
  h ∈ D.halfEdges ∧ ∀ x ∈ D.comps, if h.top then h.label ∈ x.topContour.dropLast → DownFrom h.label right
    else h.label ∈ x.bottomContour.dropLast → UpFrom h.label right

end Verif
