import Verif.Model.Decomposition
import Verif.Model.World

/-!
# Objects that share their lengths

`std::shared_ptr<Lengths>` are addresses of cells.  The IETs and decompositions that a user holds refer to such cells.  All lengths
are `sample::Lengths`.
-/

namespace Verif

/-- The same decomposition with another underlying `Lengths` object. (impl/lengths_with_connections.hpp:56-61) -/
def Decomp.withInner {σ τ T : Type} (D : Decomp σ T) (x : τ) : Decomp τ T :=
  ⟨D.comps, ⟨x, D.lengths.stack, D.lengths.conns, D.lengths.others⟩⟩

/-- The `Lengths` objects, the IETs with the address of their lengths (`std::shared_ptr<Lengths> lengths` in
impl/interval_exchange_transformation.impl.hpp:68-73), and the decompositions with the address of the lengths that are wrapped by their
`LengthsWithConnections` (impl/lengths_with_connections.hpp:57-60). -/
structure Heap (T : Type) where
  cells : List (SLengths T)
  iets : List (IET T × ℕ)
  decomps : List (Decomp ℕ T)

/-- Calls of a user: creating lengths, creating an IET, an operation on an IET, creating a decomposition from an IET, a step of
a decomposition, and `Component::iet()`. (interval_exchange_transformation.hpp:39-118, component.hpp:36-97 and dynamical_decomposition.hpp:36-55) -/
inductive HeapOp (T : Type)
  | lengths (l : List T)
  | iet (addr : ℕ) (top bottom : List Label)
  | call (k : ℕ) (op : Op)
  | decomposition (k : ℕ)
  | step (k i : ℕ) (limit : ℤ)
  | componentIet (k i : ℕ)

namespace HeapOp

variable {T : Type} [CommRing T] [LinearOrder T]

/-- Run an operation.

* `lengths`: `std::make_shared<Lengths>(sample::Lengths<T>(l))` (sample/detail/lengths.ipp:57-62)
* `iet`: interval_exchange_transformation.cc:276-279
* `call`: an operation on the IET number `k`; an IET that is split off shares the lengths (346-355)
* `decomposition`: dynamical_decomposition.cc:45-56 with 486-488, the lengths of the IET are wrapped, not copied
* `step`: component.cc:165-287
* `componentIet`: component.cc:466-469 with `std::make_shared` of a new object -/
def exec (L : PPL) (A : Arith T) (fuel : ℕ) : HeapOp T → Heap T → M (Heap T)
  | lengths l, h => do
    let s ← SLengths.make l
    return { h with cells := h.cells ++ [s] }
  | iet a top bottom, h =>
    match h.cells[a]? with
    | none => .error .ub
    | some s => do
      let E ← IET.mk? (SLengths.ops A) top bottom s
      return { h with iets := h.iets ++ [(E, a)] }
  | call k op, h =>
    match h.iets[k]? with
    | none => .ok h
    | some (E, a) =>
      match h.cells[a]? with
      | none => .error .ub
      | some s => do
        let (new, E, s) ← op.call L (SLengths.ops A) fuel E s
        return { h with cells := h.cells.set a s, iets := h.iets.set k (E, a) ++ new.map (fun F => (F, a)) }
  | decomposition k, h =>
    match h.iets[k]? with
    | none => .ok h
    | some (E, a) =>
      match h.cells[a]? with
      | none => .error .ub
      | some s => do
        let D ← Decomp.make (SLengths.ops A) E s
        return { h with decomps := h.decomps ++ [D.withInner a] }
  | step k i limit, h =>
    match h.decomps[k]? with
    | none => .ok h
    | some D =>
      match h.cells[D.lengths.inner]? with
      | none => .error .ub
      | some s => do
        let (_, D') ← (D.withInner s).decompositionStep L (SLengths.ops A) fuel limit i
        return { h with cells := h.cells.set D.lengths.inner D'.lengths.inner, decomps := h.decomps.set k (D'.withInner D.lengths.inner) }
  | componentIet k i, h =>
    match h.decomps[k]? with
    | none => .ok h
    | some D =>
      match h.cells[D.lengths.inner]? with
      | none => .error .ub
      | some s => do
        let (E, f) ← (D.withInner s).iet (SLengths.ops A) A i
        return { h with cells := h.cells ++ [f], iets := h.iets ++ [(E, h.cells.length)] }

/-- The address of the lengths of the object on which an operation is called. (impl/interval_exchange_transformation.impl.hpp:67 and impl/lengths_with_connections.hpp:56-61) -/
def addr (h : Heap T) : HeapOp T → Option ℕ
  | lengths _ => none
  | iet a _ _ => some a
  | call k _ => (h.iets[k]?).map Prod.snd
  | decomposition k => (h.iets[k]?).map Prod.snd
  | step k _ _ => (h.decomps[k]?).map (fun D => D.lengths.inner)
  | componentIet k _ => (h.decomps[k]?).map (fun D => D.lengths.inner)

end HeapOp

end Verif
