import Verif.Model.Base

/-!
# Model of object lifetimes: reference counts

Which objects are kept alive by `std::shared_ptr`, which pointers do not keep an object alive, and which pointers are followed
by which calls.  The contents of the objects are not part of this model.
-/

namespace Verif.Lifetime

/-- Objects that are managed by a `std::shared_ptr`; other objects are referred to by their position on the heap. (interval_exchange_transformation.hpp:121, dynamical_decomposition.hpp:58, and impl/lengths_with_connections.hpp:58-59) -/
inductive Obj
  /-- `Lengths` provided by the user -/
  | lengths
  /-- `LengthsWithConnections` (libintervalxt/src/impl/lengths_with_connections.hpp:56-61): a `shared_ptr` to the original lengths and a
  `weak_ptr` to the implementation of the decomposition. -/
  | withConnections (lengths : ℕ) (decomposition : ℕ)
  /-- `ImplementationOf<DynamicalDecomposition>` (libintervalxt/src/impl/decomposition_state.hpp:33-67): a deque of components, the IET of each
  has a `shared_ptr` to its lengths (libintervalxt/src/impl/interval_exchange_transformation.impl.hpp:67). -/
  | decomposition (components : List ℕ)
  deriving DecidableEq, Repr

/-- The objects for which an object has a `shared_ptr`. (impl/lengths_with_connections.hpp:56-61 and impl/decomposition_state.hpp:64) -/
def Obj.owns : Obj → List ℕ
  | .lengths => []
  | .withConnections l _ => [l]
  | .decomposition components => components

/-- An object with the number of `shared_ptr`s to it; it has been destroyed when this is zero. (intervalxt/shared.hpp:33) -/
structure Cell where
  count : ℕ
  obj : Obj
  deriving DecidableEq, Repr

/-- Variables of the user. (interval_exchange_transformation.hpp:121, dynamical_decomposition.hpp:58, and impl/lengths_with_connections.hpp:58-59) -/
inductive Var
  /-- A `shared_ptr<Lengths>`. -/
  | lengths (a : ℕ)
  /-- An `IntervalExchangeTransformation`. -/
  | iet (a : ℕ)
  /-- A `DynamicalDecomposition`, `Separatrix`, or `Connection` (no component), or a `Component` or `HalfEdge`.  All of them contain a
  `DynamicalDecomposition` (libintervalxt/src/impl/implementation_of_decomposition.hpp:47), i.e., a `shared_ptr` (dynamical_decomposition.hpp).
  Those for a component also contain a raw pointer to the component (component.impl.hpp:55, half_edge.impl.hpp:44), which is given by the
  position in the deque here; `emplace_back` does not invalidate pointers to the elements of a deque. -/
  | handle (d : ℕ) (component : Option ℕ)
  /-- A variable of any of these types that has been moved from: its `std::unique_ptr` (libintervalxt/intervalxt/movable.hpp:30, copyable.hpp:31) or
  `std::shared_ptr` (shared.hpp:33) is null. -/
  | empty
  deriving DecidableEq, Repr

/-- The object for which a variable has a `shared_ptr`. (interval_exchange_transformation.hpp:121, dynamical_decomposition.hpp:58, impl/implementation_of_decomposition.hpp:47) -/
def Var.owns : Var → List ℕ
  | .lengths a => [a]
  | .iet a => [a]
  | .handle d _ => [d]
  | .empty => []

/-- All the objects and the variables of the user. (interval_exchange_transformation.hpp:121, dynamical_decomposition.hpp:58) -/
structure State where
  heap : List Cell
  vars : List Var
  deriving DecidableEq, Repr

/-- Whether there is an object that has not been destroyed. (intervalxt/shared.hpp:33) -/
def alive (heap : List Cell) (a : ℕ) : Bool :=
  match heap[a]? with
  | some c => c.count ≠ 0
  | none => false

/-- Copying a `shared_ptr`. (intervalxt/shared.hpp:33) -/
def acquire (heap : List Cell) (a : ℕ) : M (List Cell) :=
  match heap[a]? with
  | some c => if c.count = 0 then .error .ub else .ok (heap.set a { c with count := c.count + 1 })
  | none => .error .ub

/-- `std::make_shared`; the new object is the last one on the heap. (dynamical_decomposition.cc:46-51) -/
def make (heap : List Cell) (o : Obj) : List Cell := heap ++ [⟨1, o⟩]

/-- Destroying `shared_ptr`s: when the last one to an object is gone, the object and the `shared_ptr`s it contains are destroyed. (intervalxt/shared.hpp:33) -/
def release : ℕ → List ℕ → List Cell → M (List Cell)
  | _, [], heap => .ok heap
  | 0, _ :: _, _ => .error .fuel
  | n + 1, a :: as, heap =>
    match heap[a]? with
    | none => .error .ub
    | some c =>
      if c.count = 0 then .error .ub
      else if c.count = 1 then release n (c.obj.owns ++ as) (heap.set a { c with count := 0 })
      else release n as (heap.set a { c with count := c.count - 1 })

/-- A bound for the number of `shared_ptr`s that can be destroyed. (intervalxt/shared.hpp:33) -/
def total (heap : List Cell) : ℕ := (heap.map Cell.count).sum

/-- Any call on a `Lengths` object.  `LengthsWithConnections` (libintervalxt/src/lengths_with_connections.cc:32-122) forwards to the original
lengths and dereferences `decomposition.lock()` when subtracting (:58-79). -/
def use (heap : List Cell) (a : ℕ) : M Unit :=
  match heap[a]? with
  | some ⟨n, .lengths⟩ => if n = 0 then .error .ub else .ok ()
  | some ⟨n, .withConnections l d⟩ => if n = 0 then .error .ub else if alive heap l && alive heap d then .ok () else .error .ub
  | _ => .error .ub

/-- The implementation of a decomposition, through a `shared_ptr`. (dynamical_decomposition.cc:117-123) -/
def deref (heap : List Cell) (d : ℕ) : M (List ℕ) :=
  match heap[d]? with
  | some ⟨n, .decomposition components⟩ => if n = 0 then .error .ub else .ok components
  | _ => .error .ub

/-- Following the raw pointer to a component. (impl/component.impl.hpp:55) -/
def componentAt (components : List ℕ) (i : ℕ) : M ℕ :=
  match components[i]? with
  | some w => .ok w
  | none => .error .ub

/-- Calls by the user; a variable is given by its position in the list of variables. (interval_exchange_transformation.hpp:39-118, component.hpp:36-97, dynamical_decomposition.hpp:36-55) -/
inductive Call
  /-- `std::make_shared<Lengths>(…)` -/
  | makeLengths
  /-- The constructor of an IET with given lengths. -/
  | makeIET (v : ℕ)
  /-- `iet.lengths()` -/
  | lengths (v : ℕ)
  /-- Any call on an IET.  Calls that split an IET return the other half. -/
  | callIET (v : ℕ) (split : Bool)
  /-- The constructor of a decomposition. -/
  | makeDecomposition (v : ℕ)
  /-- Getting one handle from another: copying, `components()`, `topContour()`, `source()`, …; copying a variable that has been moved from
  counts as undefined here. -/
  | handle (v : ℕ) (component : Option ℕ)
  /-- Any call that uses the IET of a component.  When the component is split, a handle for the new component is returned. -/
  | callComponent (v : ℕ) (split : Bool)
  /-- `component.iet()` -/
  | componentIET (v : ℕ)
  /-- Destroying a variable. -/
  | drop (v : ℕ)
  /-- `auto x = std::move(v)`; all the classes have implicit move constructors and assignments. -/
  | move (v : ℕ)
  /-- `v = std::move(w)`; whether the variables have the same type is not modelled. -/
  | assign (v w : ℕ)
  deriving DecidableEq, Repr

/-- What happens to the objects in a call. (interval_exchange_transformation.cc:273-300 and 358, dynamical_decomposition.cc:45-63; see the cases.) -/
def run (s : State) : Call → M State
  | .makeLengths => .ok ⟨make s.heap .lengths, .lengths s.heap.length :: s.vars⟩
  -- interval_exchange_transformation.cc:276-279 and 395-398
  | .makeIET v => match s.vars[v]? with
    | some (.lengths a) => do
      let heap ← acquire s.heap a
      use heap a
      return ⟨heap, .iet a :: s.vars⟩
    | some .empty => .error .ub
    | _ => .error .invalidArgument
  -- interval_exchange_transformation.cc:298-300
  | .lengths v => match s.vars[v]? with
    | some (.iet a) => do
      let heap ← acquire s.heap a
      return ⟨heap, .lengths a :: s.vars⟩
    | some .empty => .error .ub
    | _ => .error .invalidArgument
  -- interval_exchange_transformation.cc:358 for the other half
  | .callIET v split => match s.vars[v]? with
    | some (.iet a) => do
      use s.heap a
      if split then
        let heap ← acquire s.heap a
        return ⟨heap, .iet a :: s.vars⟩
      else return s
    | some .empty => .error .ub
    | _ => .error .invalidArgument
  -- dynamical_decomposition.cc:45-56 with interval_exchange_transformation.cc:486-488
  | .makeDecomposition v => match s.vars[v]? with
    | some (.iet a) => do
      let heap ← acquire s.heap a
      let d := heap.length
      let heap := make heap (.decomposition [])
      let w := heap.length
      let heap := make heap (.withConnections a d)
      use heap w
      let heap := heap.set d ⟨1, .decomposition [w]⟩
      return ⟨heap, .handle d none :: s.vars⟩
    | some .empty => .error .ub
    | _ => .error .invalidArgument
  -- e.g., dynamical_decomposition.cc:58-63, component.cc:92-106, implementation_of_decomposition.cc:28-29
  | .handle v component => match s.vars[v]? with
    | some (.handle d _) => do
      let components ← deref s.heap d
      match component with
      | some i => let _ ← componentAt components i
      | none => pure ()
      let heap ← acquire s.heap d
      return ⟨heap, .handle d component :: s.vars⟩
    | some .empty => .error .ub
    | _ => .error .invalidArgument
  -- component.cc:165-287 with interval_exchange_transformation.cc:358 and dynamical_decomposition.cc:76-85
  | .callComponent v split => match s.vars[v]? with
    | some (.handle d (some i)) => do
      let components ← deref s.heap d
      let w ← componentAt components i
      use s.heap w
      if split then
        let heap ← acquire s.heap w
        let heap ← acquire heap d
        match heap[d]? with
        | some c => return ⟨heap.set d { c with obj := .decomposition (components ++ [w]) }, .handle d (some components.length) :: s.vars⟩
        | none => .error .ub
      else return s
    | some .empty => .error .ub
    | _ => .error .invalidArgument
  -- component.cc:466-469
  | .componentIET v => match s.vars[v]? with
    | some (.handle d (some i)) => do
      let components ← deref s.heap d
      let w ← componentAt components i
      use s.heap w
      return ⟨make s.heap .lengths, .iet s.heap.length :: s.vars⟩
    | some .empty => .error .ub
    | _ => .error .invalidArgument
  | .drop v => match s.vars[v]? with
    | some x => do
      let heap ← release (total s.heap) x.owns s.heap
      return ⟨heap, s.vars.eraseIdx v⟩
    | none => .error .invalidArgument
  | .move v => match s.vars[v]? with
    | some x => .ok ⟨s.heap, x :: s.vars.set v .empty⟩
    | none => .error .invalidArgument
  -- `std::unique_ptr` and `std::shared_ptr` destroy what they have pointed to last; assigning a variable to itself does nothing
  | .assign v w => match s.vars[v]?, s.vars[w]? with
    | some y, some x =>
      if v = w then .ok s
      else do
        let heap ← release (total s.heap) y.owns s.heap
        return ⟨heap, (s.vars.set w .empty).set v x⟩
    | _, _ => .error .invalidArgument

end Verif.Lifetime
