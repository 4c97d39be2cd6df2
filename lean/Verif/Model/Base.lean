import Verif.Spec

/-!
# Outcomes of C++ code
-/

namespace Verif

/-- How a C++ function can fail to return a value. (src/util/assert.ipp:70-107 for assertions and checks) -/
inductive Err
  /-- `std::out_of_range`, e.g., thrown by `vector::at`, `unordered_map::at`. -/
  | outOfRange
  /-- `std::invalid_argument`, e.g., thrown by LIBINTERVALXT_CHECK_ARGUMENT. -/
  | invalidArgument
  /-- `std::logic_error` -/
  | logicError
  /-- A failing `assert` or LIBINTERVALXT_ASSERT (libintervalxt/src/util/assert.ipp:53-107). -/
  | assertFailed
  /-- Undefined behaviour, e.g., dereferencing `end()`, division by zero. -/
  | ub
  /-- Not an outcome of the code: an unlimited loop did not finish within the given fuel. -/
  | fuel
  deriving DecidableEq, Repr

/-- The results of the modelled functions. (src/util/assert.ipp:70-107, exceptions) -/
abbrev M (α : Type) := Except Err α

/-- `assert(b)` (src/util/assert.ipp:101 `LIBINTERVALXT_ASSERT`) -/
def assertM (b : Bool) : M Unit := if b then .ok () else .error .assertFailed

end Verif
