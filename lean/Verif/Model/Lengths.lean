import Verif.Model.Base
import Mathlib.Algebra.Order.Field.Rat

/-!
# Model of `intervalxt::sample::Lengths` and of the interface `intervalxt::Lengths`
-/

namespace Verif

/-- Model of the template parameters `FloorDivision` and `Coefficients` of `sample::Lengths`
(libintervalxt/intervalxt/sample/lengths.hpp:39, instances in
libintervalxt/intervalxt/sample/*_floor_division.hpp and *_coefficients.hpp). -/
structure Arith (T : Type) where
  fdiv : T → T → M ℤ
  coeffs : List T → M (List (List ℚ))

/-- Model of the data of `sample::Lengths<T>`: `std::vector<Label> stack` and
`std::vector<T> lengths` (libintervalxt/intervalxt/sample/lengths.hpp:77-80). -/
structure SLengths (T : Type) where
  stack : List Label
  lengths : List T
  deriving DecidableEq, Repr

namespace SLengths

variable {T : Type} [CommRing T] [LinearOrder T]

/-- libintervalxt/intervalxt/sample/detail/lengths.ipp:44-50 `cmp(lhs, rhs)`. -/
def cmpT (x y : T) : Int := if x < y then -1 else if x > y then 1 else 0

/-- lengths.ipp:57-62: the constructor rejects negative lengths. -/
def make (lengths : List T) : M (SLengths T) :=
  if lengths.any (fun x => x < 0) then .error .invalidArgument else .ok ⟨[], lengths⟩

/-- lengths.ipp:73-78 -/
def labels (s : SLengths T) : List Label := List.range s.lengths.length

/-- lengths.ipp:85-98 `get`/`at`: `lengths.at(index(label))` where `index` is the hash of the label
which is its id (lengths.ipp:40-42, label.cc:43-49). -/
def at' (s : SLengths T) (l : Label) : M T :=
  match s.lengths[l]? with
  | some x => .ok x
  | none => .error .outOfRange

/-- Assignment through the reference returned by `at`, lengths.ipp:95-98. -/
def set (s : SLengths T) (l : Label) (x : T) : M (SLengths T) :=
  if l < s.lengths.length then .ok { s with lengths := s.lengths.set l x } else .error .outOfRange

/-- lengths.ipp:80-83 `operator T`: the sum of the lengths on the stack, `std::accumulate`. -/
def value (s : SLengths T) : M T :=
  s.stack.foldlM (fun v l => do return v + (← s.at' l)) 0

/-- lengths.ipp:100-103 -/
def push (l : Label) (s : SLengths T) : SLengths T := { s with stack := s.stack ++ [l] }

/-- lengths.ipp:105-108; `pop_back` on an empty vector is undefined. -/
def pop (s : SLengths T) : M (SLengths T) :=
  if s.stack = [] then .error .ub else .ok { s with stack := s.stack.dropLast }

/-- lengths.ipp:110-113 -/
def clear (s : SLengths T) : SLengths T := { s with stack := [] }

/-- lengths.ipp:115-118 -/
def cmp (l : Label) (s : SLengths T) : M Int := do
  return cmpT (← s.value) (← s.at' l)

/-- lengths.ipp:120-123 -/
def cmp2 (l r : Label) (s : SLengths T) : M Int := do
  return cmpT (← s.at' l) (← s.at' r)

/-- lengths.ipp:125-130 -/
def subtract (a : Label) (s : SLengths T) : M (SLengths T) := do
  let s ← s.set a ((← s.at' a) - (← s.value))
  assertM (0 < (← s.at' a))
  return s.clear

/-- The loop over the stack in `subtractRepeated`, lengths.ipp:146-159. -/
def subtractRepeatedLoop (a : Label) : List Label → Label → SLengths T → M (Label × SLengths T)
  | [], _, _ => .error .logicError
  | l :: ls, stop, s => do
    if (← s.at' a) ≤ (← s.at' l) then
      return (stop, s.clear)
    else
      let s ← s.set a ((← s.at' a) - (← s.at' l))
      assertM (0 < (← s.at' a))
      subtractRepeatedLoop a ls l s

/-- lengths.ipp:132-160 -/
def subtractRepeated (A : Arith T) (a : Label) (s : SLengths T) : M (Label × SLengths T) :=
  match s.stack.getLast? with
  | none => .error .invalidArgument
  | some last => do
    let quo ← A.fdiv (← s.at' a) (← s.value)
    let s ← s.set a ((← s.at' a) - (quo : T) * (← s.value))
    assertM (0 ≤ (← s.at' a))
    let s ← if (← s.at' a) = 0 then s.set a ((← s.at' a) + (← s.value)) else .ok s
    subtractRepeatedLoop a s.stack last s

/-- lengths.ipp:162-168 -/
def coefficients (A : Arith T) (labels : List Label) (s : SLengths T) : M (List (List ℚ)) := do
  A.coeffs (← labels.mapM s.at')

/-- lengths.ipp:195-198: a copy with an empty stack (the constructor is run again). -/
def forget (s : SLengths T) : M (SLengths T) := make s.lengths

/-- lengths.ipp:186-193: the loop over all labels setting those not in the set to `T()`. -/
def onlyLoop (keep : List Label) : List Label → SLengths T → M (SLengths T)
  | [], s => .ok s
  | l :: ls, s => do
    let s ← if l ∈ keep then .ok s else s.set l 0
    onlyLoop keep ls s

/-- lengths.ipp:186-193 -/
def only (keep : List Label) (s : SLengths T) : M (SLengths T) := do
  let o ← make s.lengths
  onlyLoop keep s.labels o

/-- lengths.ipp:205-220; `other.get` is passed as a function.  The C++ reads `y` only after the first
test, the model does the same. -/
def similar (a b : Label) (s : SLengths T) (get : Label → M T) (aa bb : Label) : M Bool := do
  let x ← s.at' a
  let ox ← get aa
  if x = 0 ∧ ox = 0 then
    return true
  else
    let y ← s.at' b
    let oy ← get bb
    if y = 0 ∧ oy = 0 then
      return true
    else
      return decide (x * oy = y * ox)

end SLengths

/-- What `LengthsWithConnections` can see of the IET that is calling it through its back pointer to
the decomposition (lengths_with_connections.cc:61-62): its current top and whether it is swapped. -/
structure Ctx where
  top : List Label
  swapped : Bool
  deriving DecidableEq, Repr

/-- Model of the type-erased interface `intervalxt::Lengths`
(libintervalxt/intervalxt/lengths.hpp:58-80).  `σ` is the mutable state behind the shared pointer.
Simplification: `forget()` (and `forget().only()`) produce a `sample::Lengths`. -/
structure LengthsOps (σ T : Type) where
  push : Label → σ → M σ
  pop : σ → M σ
  subtract : Ctx → Label → σ → M σ
  subtractRepeated : Ctx → Label → σ → M (Label × σ)
  coefficients : List Label → σ → M (List (List ℚ))
  cmp : Label → σ → M Int
  cmp2 : Label → Label → σ → M Int
  get : Label → σ → M T
  forget : σ → M (SLengths T)

/-- `sample::Lengths<T>` as an implementation of the interface. (sample/detail/lengths.ipp:74-226) -/
def SLengths.ops {T : Type} [CommRing T] [LinearOrder T] (A : Arith T) : LengthsOps (SLengths T) T where
  push l s := .ok (s.push l)
  pop := SLengths.pop
  subtract _ := SLengths.subtract
  subtractRepeated _ := SLengths.subtractRepeated A
  coefficients := SLengths.coefficients A
  cmp := SLengths.cmp
  cmp2 := SLengths.cmp2
  get l s := s.at' l
  forget := SLengths.forget

end Verif
