import Verif.Model.Base

/-!
# Model of the registration of types of lengths in Python

In Python, the types of lengths that have been used are registered with cereal before something is pickled.  What is modelled are the calls of `cppyy.include`,
`cppyy.cppdef` and `logging.warning`; these calls themselves are not modelled, in particular they always succeed.
-/

namespace Verif

/-- The types of the entries of the vectors passed to `Lengths` that pyintervalxt/src/pyintervalxt/cppyy_intervalxt.py:178-189 knows, and all the others. -/
inductive EntryType
  | int | mpz | mpq | renf | elementInteger | elementRational | elementNumberField
  | other (name : String)
  deriving DecidableEq

/-- The calls that are observed. (cppyy_intervalxt.py:57-75) -/
inductive RegEvent
  | includes (header : String)
  | register (name : String)
  | warn (name : String)
  deriving DecidableEq

/-- pyintervalxt/src/pyintervalxt/cppyy_intervalxt.py:48-55: the class `LengthRegistrar`, its class attribute `REGISTERED_LENGTHS` and the attribute `known_lengths` of
the only instance.  Sets are lists without repeated entries.  The calls that have been made are recorded in `log`. -/
structure Registrar where
  known : List (String × List String)
  registered : List String
  log : List RegEvent
  deriving DecidableEq

/-- `length.replace(' ', '')` in pyintervalxt/src/pyintervalxt/cppyy_intervalxt.py:60,65. -/
def stripSpaces (s : String) : String := String.ofList (s.toList.filter (· ≠ ' '))

/-- pyintervalxt/src/pyintervalxt/cppyy_intervalxt.py:60. -/
def mpzName : String := "intervalxt::cppyy::Lengths<std::vector<__gmp_expr<__mpz_struct[1],__mpz_struct[1]>>>"

/-- pyintervalxt/src/pyintervalxt/cppyy_intervalxt.py:65. -/
def mpqName : String := "intervalxt::cppyy::Lengths<std::vector<__gmp_expr<__mpq_struct[1],__mpq_struct[1]>>>"

namespace Registrar

/-- pyintervalxt/src/pyintervalxt/cppyy_intervalxt.py:49,78. -/
def init : Registrar := ⟨[], [], []⟩

/-- pyintervalxt/src/pyintervalxt/cppyy_intervalxt.py:54-55. -/
def track (r : Registrar) (name : String) (headers : List String) : Registrar :=
  if (name, headers) ∈ r.known then r else { r with known := r.known ++ [(name, headers)] }

/-- `REGISTERED_LENGTHS.add` in pyintervalxt/src/pyintervalxt/cppyy_intervalxt.py:75. -/
def add (r : Registrar) (name : String) : Registrar :=
  if name ∈ r.registered then r else { r with registered := r.registered ++ [name] }

/-- The body of the loop in pyintervalxt/src/pyintervalxt/cppyy_intervalxt.py:59-75. -/
def visit (r : Registrar) (p : String × List String) : Registrar :=
  if p.1 ∉ r.registered then
    if stripSpaces p.1 = mpzName then { r with log := r.log ++ [.warn p.1] }
    else if stripSpaces p.1 = mpqName then { r with log := r.log ++ [.warn p.1] }
    else ({ r with log := r.log ++ p.2.map RegEvent.includes ++ [.register p.1] } : Registrar).add p.1
  else r.add p.1

/-- pyintervalxt/src/pyintervalxt/cppyy_intervalxt.py:57-75.  The order in which the elements of the set are visited is not specified by Python so it is given. -/
def call (r : Registrar) (order : List (String × List String)) : Registrar := order.foldl visit r

/-- The headers in pyintervalxt/src/pyintervalxt/cppyy_intervalxt.py:178-189; `none` stands for the `TypeError`. -/
def defaultHeaders : EntryType → Option (List String)
  | .int => some ["intervalxt/sample/integer_coefficients.hpp", "intervalxt/sample/integer_floor_division.hpp"]
  | .mpz => some ["intervalxt/sample/mpz_coefficients.hpp", "intervalxt/sample/mpz_floor_division.hpp"]
  | .mpq => some ["intervalxt/sample/mpq_coefficients.hpp", "intervalxt/sample/mpq_floor_division.hpp"]
  | .renf => some ["intervalxt/sample/renf_elem_coefficients.hpp", "intervalxt/sample/renf_elem_floor_division.hpp", "e-antic/cereal.hpp"]
  | .elementInteger | .elementRational | .elementNumberField =>
    some ["intervalxt/sample/element_coefficients.hpp", "intervalxt/sample/element_floor_division.hpp", "exact-real/cereal.hpp"]
  | .other _ => none

/-- pyintervalxt/src/pyintervalxt/cppyy_intervalxt.py:169-198: `Lengths(lengths, headers)` for a list of `n` elements of the given type; `cppName` is the attribute
`__cpp_name__` of the type of the lengths.  `none` if an exception is raised. -/
def lengths (cppName : EntryType → String) (n : ℕ) (t : EntryType) (headers : Option (List String)) (r : Registrar) : Option Registrar :=
  if n = 0 then none
  else
    match (match headers with | some h => some h | none => defaultHeaders t) with
    | none => none
    | some h => some (({ r with log := r.log ++ h.map RegEvent.includes } : Registrar).track (cppName t) h)

end Registrar

/-- Calls in a Python session: `Lengths()` (also called by `IntervalExchangeTransformation()`), and pickling or unpickling, upon which cppyythonizations call the
registrar (pyintervalxt/src/pyintervalxt/cppyy_intervalxt.py:81-89), with the order in which it visits the types. -/
inductive SessionOp
  | lengths (n : ℕ) (t : EntryType) (headers : Option (List String))
  | pickle (order : List (String × List String))
  deriving DecidableEq

/-- A call that raises an exception does not change anything. (cppyy_intervalxt.py:169-198) -/
def SessionOp.exec (cppName : EntryType → String) : SessionOp → Registrar → Registrar
  | lengths n t h, r => (r.lengths cppName n t h).getD r
  | pickle order, r => r.call order

end Verif
