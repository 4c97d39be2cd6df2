import Verif.Model.Arithmetic

/-!
# Model of `sample::Lengths` with machine integers

`sample::Lengths<int>`, `sample::Lengths<long>`, `sample::Lengths<long long>`: the same code as in `Verif.Model.Lengths` but every
sum, difference, product and quotient is computed in a signed type of limited range, leaving the range is undefined behaviour.

`max` is `std::numeric_limits<T>::max()`, the smallest value is `-max - 1`.  Types smaller than `int` are not modelled (their
arithmetic is performed in `int`).
-/

namespace Verif

/-- The result of an arithmetic operation of a signed type: undefined if it is out of range. (sample/detail/lengths.ipp:74-160) -/
def checked (max x : ℤ) : M ℤ := if -max - 1 ≤ x ∧ x ≤ max then .ok x else .error .ub

/-- integer_floor_division.hpp:30-37: `divident / divisor`, undefined for a zero divisor and when the quotient is out of range. -/
def machineFloorDivision (max x y : ℤ) : M ℤ := if y = 0 then .error .ub else checked max (Int.tdiv x y)

namespace MLengths

/-- lengths.ipp:80-83 `operator T`: `std::accumulate`, every partial sum has to be in range. -/
def value (max : ℤ) (s : SLengths ℤ) : M ℤ :=
  s.stack.foldlM (fun v l => do checked max (v + (← s.at' l))) 0

/-- lengths.ipp:115-118 -/
def cmp (max : ℤ) (l : Label) (s : SLengths ℤ) : M Int := do
  return SLengths.cmpT (← value max s) (← s.at' l)

/-- lengths.ipp:125-130 -/
def subtract (max : ℤ) (a : Label) (s : SLengths ℤ) : M (SLengths ℤ) := do
  let s ← s.set a (← checked max ((← s.at' a) - (← value max s)))
  assertM (0 < (← s.at' a))
  return s.clear

/-- The loop over the stack in `subtractRepeated`, lengths.ipp:146-159. -/
def subtractRepeatedLoop (max : ℤ) (a : Label) : List Label → Label → SLengths ℤ → M (Label × SLengths ℤ)
  | [], _, _ => .error .logicError
  | l :: ls, stop, s => do
    if (← s.at' a) ≤ (← s.at' l) then
      return (stop, s.clear)
    else
      let s ← s.set a (← checked max ((← s.at' a) - (← s.at' l)))
      assertM (0 < (← s.at' a))
      subtractRepeatedLoop max a ls l s

/-- lengths.ipp:132-160 -/
def subtractRepeated (max : ℤ) (a : Label) (s : SLengths ℤ) : M (Label × SLengths ℤ) :=
  match s.stack.getLast? with
  | none => .error .invalidArgument
  | some last => do
    let quo ← machineFloorDivision max (← s.at' a) (← value max s)
    let s ← s.set a (← checked max ((← s.at' a) - (← checked max (quo * (← value max s)))))
    assertM (0 ≤ (← s.at' a))
    let s ← if (← s.at' a) = 0 then s.set a (← checked max ((← s.at' a) + (← value max s))) else .ok s
    subtractRepeatedLoop max a s.stack last s

/-- lengths.ipp:205-220: as `SLengths.similar`, the products have to be in range. -/
def similar (max : ℤ) (a b : Label) (s : SLengths ℤ) (get : Label → M ℤ) (aa bb : Label) : M Bool := do
  let x ← s.at' a
  let ox ← get aa
  if x = 0 ∧ ox = 0 then
    return true
  else
    let y ← s.at' b
    let oy ← get bb
    if y = 0 ∧ oy = 0 then
      return true
    else
      return decide ((← checked max (x * oy)) = (← checked max (y * ox)))

/-- `sample::Lengths<T>` for a signed integral type as an implementation of the interface.  `push`, `pop`, the comparison of two
labels, `get`, `coefficients` (conversion to `mpq_class`) and `forget` perform no arithmetic and are shared with `SLengths.ops`.  (The
model of the tracker calls `SLengths.similar` rather than `MLengths.similar`; see `C28_no_similarity` for why this makes no difference.) (sample/detail/lengths.ipp:74-226) -/
def ops (max : ℤ) : LengthsOps (SLengths ℤ) ℤ where
  push l s := .ok (s.push l)
  pop := SLengths.pop
  subtract _ := subtract max
  subtractRepeated _ := subtractRepeated max
  coefficients := SLengths.coefficients intArith
  cmp := cmp max
  cmp2 := SLengths.cmp2
  get l s := s.at' l
  forget := SLengths.forget

end MLengths

end Verif
