import Verif.Model.Python
import Verif.Model.Render

/-!
# Model of the methods that are replaced in Python

The wrappers of `left()` and `right()` of components and of `top()` and `bottom()` of IETs.
-/

namespace Verif

/-- pyintervalxt/src/pyintervalxt/cppyy_intervalxt.py:136: `std::get<0>` of a `Side`, i.e., a `std::variant<Connection, HalfEdge>` (libintervalxt/intervalxt/forward.hpp:62); it throws
`std::bad_variant_access` (`none`) for a half edge. -/
def Side.get0 : Side → Option Conn
  | .conn c => some c
  | .edge _ => none

/-- cppyy_intervalxt.py:135-139 `connections`; the attribute `_variant` that keeps the memory alive is not modelled. -/
def pyConnections (variants : List Side) : Option (List Conn) := variants.mapM Side.get0

variable {σ T : Type}

/-- cppyy_intervalxt.py:141: `component.left()` in Python. -/
def Decomp.pyLeft (D : Decomp σ T) (i : ℕ) : M (Option (List Conn)) := do return pyConnections (← D.left i)

/-- cppyy_intervalxt.py:142: `component.right()` in Python. -/
def Decomp.pyRight (D : Decomp σ T) (i : ℕ) : M (Option (List Conn)) := do return pyConnections (← D.right i)

/-- cppyy_intervalxt.py:92-99 `name_labels`: a list of the labels with the strings that they are printed as. -/
def nameLabels (labels : List Label) (name : Label → List Char) : List (Label × List Char) := labels.map (fun l => (l, name l))

/-- cppyy_intervalxt.py:109: `iet.top()` in Python.  All IETs have a method `lengths`; all lengths that can be created in Python use `sample::Lengths::render`
(libintervalxt/intervalxt/sample/detail/lengths.ipp:170-183), or forward to it (libintervalxt/src/lengths_with_connections.cc:108-110). -/
def IET.pyTop (E : IET T) : List (Label × List Char) := nameLabels E.top render

/-- cppyy_intervalxt.py:110: `iet.bottom()` in Python. -/
def IET.pyBottom (E : IET T) : List (Label × List Char) := nameLabels E.bottom render

end Verif
