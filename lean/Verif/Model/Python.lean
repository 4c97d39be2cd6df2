import Verif.Model.Heap

/-!
# Model of IETs created from Python

Only what is relevant for the values of lengths: `IntervalExchangeTransformation(lengths, permutation)` in Python and the `lengths()` that is attached
to the result.  Conversions between Python and C++ values by cppyy are not modelled.
-/

namespace Verif

/-- The objects, and the addresses of the lengths returned by `iet.lengths()` in Python for each of the IETs that have been created there. (cppyy_intervalxt.py:201-217) -/
structure Py (T : Type) where
  heap : Heap T
  views : List ℕ

/-- Calls in Python: creating an IET from lists, and the calls on existing objects in `HeapOp`. (cppyy_intervalxt.py:201-217) -/
inductive PyOp (T : Type)
  | create (lengths : List T) (permutation : List ℤ)
  | call (k : ℕ) (op : Op)
  | decomposition (k : ℕ)
  | step (k i : ℕ) (limit : ℤ)
  | componentIet (k i : ℕ)

variable {T : Type} [CommRing T] [LinearOrder T]

/-- libintervalxt/intervalxt/cppyy.hpp:64-66: `top[p]` is not checked. -/
def pickLabels (top : List Label) (permutation : List ℤ) : M (List Label) :=
  permutation.mapM (fun (p : ℤ) => if p < 0 then .error .ub else match top[p.toNat]? with | some a => .ok a | none => .error .ub)

namespace PyOp

/-- * `create`: `IntervalExchangeTransformation` in pyintervalxt/src/pyintervalxt/cppyy_intervalxt.py:201-217 with `Lengths` (169-198; the `ValueError` for empty lengths
is `invalidArgument`) and libintervalxt/intervalxt/cppyy.hpp:60-68.  The IET gets a copy of the lengths, `iet.lengths` returns the original.
* otherwise as in `HeapOp` -/
def exec (L : PPL) (A : Arith T) (fuel : ℕ) : PyOp T → Py T → M (Py T)
  | create l p, y => do
    if l = [] then throw .invalidArgument
    let s ← SLengths.make l
    let top := s.labels
    let bottom ← pickLabels top p
    let E ← IET.mk? (SLengths.ops A) top bottom s
    return ⟨{ y.heap with cells := y.heap.cells ++ [s, s], iets := y.heap.iets ++ [(E, y.heap.cells.length + 1)] }, y.views ++ [y.heap.cells.length]⟩
  | call k op, y => do return { y with heap := ← (HeapOp.call k op).exec L A fuel y.heap }
  | decomposition k, y => do return { y with heap := ← (HeapOp.decomposition k).exec L A fuel y.heap }
  | step k i limit, y => do return { y with heap := ← (HeapOp.step k i limit).exec L A fuel y.heap }
  | componentIet k i, y => do return { y with heap := ← (HeapOp.componentIet k i).exec L A fuel y.heap }

end PyOp

end Verif
