import Verif.Model.Decomposition

/-!
# Model of printing

Texts are lists of characters.  `name` is `Lengths::render`, see `Verif.Model.Render` for the names given by `sample::Lengths`; `text` is how lengths
are printed.
-/

namespace Verif

/-- `fmt::join` (dynamical_decomposition.cc:126) -/
def joinText (sep : List Char) : List (List Char) → List Char
  | [] => []
  | [t] => t
  | t :: ts => t ++ sep ++ joinText sep ts

variable {σ T : Type} (name : Label → List Char)

/-- libintervalxt/src/separatrix.cc:54-56 -/
def Sep.print (x : Sep) : List Char := name x.label ++ [if x.parallel then '+' else '-']

/-- libintervalxt/src/connection.cc:67-69 -/
def Conn.print (x : Conn) : List Char := ['['] ++ x.source.print name ++ [' ', '⚯', ' '] ++ x.target.print name ++ [']']

/-- libintervalxt/src/half_edge.cc:144-148 -/
def HalfEdge.print (x : HalfEdge) : List Char := (if x.top then ['-'] else []) ++ ['['] ++ name x.label ++ [']']

/-- libintervalxt/src/component.cc:475-482 -/
def Side.print : Side → List Char
  | .edge h => h.print name
  | .conn c => c.print name

/-- component.cc:471-473 -/
def Decomp.printComponent (D : Decomp σ T) (i : ℕ) : M (List Char) := do
  return joinText [' '] ((← D.perimeter i).map (Side.print name))

/-- libintervalxt/src/dynamical_decomposition.cc:125-127 -/
def Decomp.print (D : Decomp σ T) : M (List Char) := do
  return "DynamicalDecomposition(".toList ++ joinText [',', ' '] (← (List.range D.comps.length).mapM (fun i => D.printComponent name i)) ++ [')']

/-- libintervalxt/src/decomposition_step.cc:29-50: dereferencing an empty `optional` is undefined.  The component prints its current state. -/
def DStep.print (D : Decomp σ T) (st : DStep) : M (List Char) :=
  match st.result with
  | .limitReached => .ok "LIMIT_REACHED".toList
  | .cylinder => .ok "CYLINDER".toList
  | .separatingConnection =>
    match st.connection, st.additional with
    | some c, some i => do
      return "SEPARATING_CONNECTION(".toList ++ c.print name ++ [',', ' '] ++ (← D.printComponent name i) ++ [')']
    | _, _ => .error .ub
  | .nonSeparatingConnection =>
    match st.connection with
    | some c => .ok ("NON_SEPARATING_CONNECTION(".toList ++ c.print name ++ [')'])
    | none => .error .ub
  | .keane => .ok "KEANE".toList
  | .withoutPeriodicTrajectoryBoshernitzan => .ok "WITHOUT_PERIODIC_TRAJECTORY_BOSHERNITZAN".toList
  | .withoutPeriodicTrajectoryAutoSimilar => .ok "WITHOUT_PERIODIC_TRAJECTORY_AUTO_SIMILAR".toList

/-- libintervalxt/src/induction_step.cc:29-48 -/
def InductionStep.print (st : InductionStep T) : List Char :=
  match st.result with
  | .limitReached => "LIMIT_REACHED".toList
  | .cylinder => "CYLINDER".toList
  | .separatingConnection => "SEPARATING_CONNECTION()".toList
  | .nonSeparatingConnection => "NON_SEPARATING_CONNECTION()".toList
  | .withoutPeriodicTrajectoryBoshernitzan => "WITHOUT_PERIODIC_TRAJECTORY_BOSHERNITZAN".toList
  | .withoutPeriodicTrajectoryAutoSimilar => "WITHOUT_PERIODIC_TRAJECTORY_AUTO_SIMILAR".toList

/-- libintervalxt/src/label.cc:37-39: the id of the label in decimal. -/
def printLabel (a : Label) : List Char := "Label(".toList ++ Nat.toDigits 10 a ++ [')']

/-- An interval on the top, interval_exchange_transformation.cc:496. -/
def printTop (text : T → List Char) (a : Label) (x : T) : List Char := ['['] ++ name a ++ [':', ' '] ++ text x ++ [']']

/-- An interval on the bottom, interval_exchange_transformation.cc:497. -/
def printBottom (a : Label) : List Char := ['['] ++ name a ++ [']']

/-- libintervalxt/src/interval_exchange_transformation.cc:494-498 -/
def IET.print (text : T → List Char) (O : LengthsOps σ T) (E : IET T) (s : σ) : M (List Char) := do
  let top ← E.top.mapM (fun a => do return printTop name text a (← O.get a s))
  return joinText [' '] top ++ [' ', '/', ' '] ++ joinText [' '] (E.bottom.map (printBottom name))

end Verif
