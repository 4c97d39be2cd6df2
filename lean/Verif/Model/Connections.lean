import Verif.Model.Lengths

/-!
# Model of the connections stored by a decomposition and of `LengthsWithConnections`
-/

namespace Verif

/-- `DecompositionState::Separatrix` (libintervalxt/src/impl/decomposition_state.hpp:42-50). -/
structure Sep where
  label : Label
  parallel : Bool
  deriving DecidableEq, Repr

/-- `DecompositionState::Connection` (decomposition_state.hpp:52-55).  Two connections are equal when their separatrices are
(libintervalxt/src/connection.cc:40-45, separatrix.cc:43-45), no matter to which decomposition they belong. -/
structure Conn where
  source : Sep
  target : Sep
  deriving DecidableEq, Repr

/-- connection.cc:47-49 -/
def Conn.parallel (c : Conn) : Bool := c.source.parallel

/-- connection.cc:51-53 -/
def Conn.antiparallel (c : Conn) : Bool := !c.parallel

/-- connection.cc:55-57 -/
def Conn.neg (c : Conn) : Conn := ⟨c.target, c.source⟩

/-- `DecompositionState::Connections` (decomposition_state.hpp:57-62). -/
structure Conns where
  topLeft : List Conn := []
  topRight : List Conn := []
  bottomLeft : List Conn := []
  bottomRight : List Conn := []
  deriving DecidableEq, Repr

/-- `std::unordered_map<Label, Connections> connections` (decomposition_state.hpp:66): the keys in the order of iteration,
and the values at the keys. -/
structure ConnMap where
  keys : List Label
  val : Label → Conns

namespace ConnMap

/-- `unordered_map::at` (implementation_of_decomposition.cc:41 and lengths_with_connections.cc:64-65) -/
def at' (m : ConnMap) (l : Label) : M Conns := if l ∈ m.keys then .ok (m.val l) else .error .outOfRange

/-- Assignment through a reference obtained from `at`. (lengths_with_connections.cc:64-79) -/
def set (m : ConnMap) (l : Label) (c : Conns) : ConnMap := { m with val := fun x => if x = l then c else m.val x }

/-- Read and write the entry of a label. (implementation_of_decomposition.cc:40-46) -/
def update (m : ConnMap) (l : Label) (f : Conns → Conns) : M ConnMap := do
  return m.set l (f (← m.at' l))

end ConnMap

/-- The state of a `LengthsWithConnections` (libintervalxt/src/impl/lengths_with_connections.hpp:57-60) together with what it
reaches through its back pointer to the decomposition: the map of connections and the components.  The component that is
calling is passed in as a `Ctx`, `others` are all other components. -/
structure LWC (σ : Type) where
  inner : σ
  stack : List Label
  conns : ConnMap
  others : List Ctx

namespace LWC

variable {σ T : Type}

/-- lengths_with_connections.cc:61-62.  Simplification: a component without any intervals (dereferencing `begin` is undefined
then) does not match. -/
def minuendOnTop (components : List Ctx) (minuend : Label) : Bool :=
  components.any (fun c => c.top.head? = some minuend && !c.swapped)

/-- lengths_with_connections.cc:57-79 for references to two different entries, both already looked up. -/
def splice (onTop : Bool) (minuend subtrahend : Label) (m : ConnMap) : ConnMap :=
  let cm := m.val minuend
  let cs := m.val subtrahend
  if onTop then
    (m.set minuend { cm with topLeft := [], bottomLeft := [] }).set subtrahend
      { cs with bottomLeft := cs.bottomLeft ++ cm.topLeft ++ cm.bottomLeft }
  else
    (m.set minuend { cm with topLeft := [], bottomLeft := [] }).set subtrahend
      { cs with topLeft := cm.topLeft ++ (cm.bottomLeft ++ cs.topLeft) }

/-- lengths_with_connections.cc:57-79 `subtract(minuend, subtrahend)`.  Splicing a list into itself is undefined. -/
def subtractConns (components : List Ctx) (minuend subtrahend : Label) (m : ConnMap) : M ConnMap := do
  let _ ← m.at' subtrahend
  let _ ← m.at' minuend
  if minuend = subtrahend then .error .ub
  else return splice (minuendOnTop components minuend) minuend subtrahend m

/-- lengths_with_connections.cc:36-40 -/
def push (O : LengthsOps σ T) (l : Label) (s : LWC σ) : M (LWC σ) := do
  assertM (l ∉ s.stack)
  let inner ← O.push l s.inner
  return { s with stack := s.stack ++ [l], inner := inner }

/-- lengths_with_connections.cc:42-46 -/
def pop (O : LengthsOps σ T) (s : LWC σ) : M (LWC σ) := do
  assertM (s.stack ≠ [])
  let inner ← O.pop s.inner
  return { s with stack := s.stack.dropLast, inner := inner }

/-- lengths_with_connections.cc:48-55 -/
def subtract (O : LengthsOps σ T) (ctx : Ctx) (minuend : Label) (s : LWC σ) : M (LWC σ) :=
  match s.stack with
  | [] => .ok s
  | b :: _ => do
    let inner ← O.subtract ctx minuend s.inner
    let conns ← subtractConns (ctx :: s.others) minuend b s.conns
    return { s with inner := inner, conns := conns, stack := [] }

/-- lengths_with_connections.cc:81-90 -/
def subtractRepeated (O : LengthsOps σ T) (ctx : Ctx) (minuend : Label) (s : LWC σ) : M (Label × LWC σ) :=
  match s.stack with
  | [] => .error .assertFailed
  | b :: _ => do
    let (ret, inner) ← O.subtractRepeated ctx minuend s.inner
    let conns ← subtractConns (ctx :: s.others) minuend b s.conns
    return (ret, { s with inner := inner, conns := conns, stack := [] })

/-- `LengthsWithConnections` as an implementation of the interface; lengths_with_connections.cc:92-122 delegate. -/
def ops (O : LengthsOps σ T) : LengthsOps (LWC σ) T where
  push := push O
  pop := pop O
  subtract := subtract O
  subtractRepeated := subtractRepeated O
  coefficients l s := O.coefficients l s.inner
  cmp l s := O.cmp l s.inner
  cmp2 l r s := O.cmp2 l r s.inner
  get l s := O.get l s.inner
  forget s := O.forget s.inner

end LWC

end Verif
