import Verif.Model.Base
import Mathlib.Algebra.Order.Field.Rat

/-!
# Model of `RationalAffineSubspace` on top of the Parma Polyhedra Library

The PPL is an external library.  It appears as a record of functions (`PPL`), its specification is
`PPL.Lawful`.
-/

namespace Verif

/-- Scalar product of two vectors, `∑ aᵢ xᵢ`. (rational_affine_subspace.cc:65-70) -/
def dot : List ℚ → List ℚ → ℚ
  | a :: as, x :: xs => a * x + dot as xs
  | _, _ => 0

/-- The relation in a PPL constraint. (rational_affine_subspace.cc:104, 113, and 122) -/
inductive Rel | eq | ge | gt
  deriving DecidableEq, Repr

/-- A PPL `Constraint` `∑ coeffs_i x_i  (= | ≥ | >)  rhs` with integer coefficients. (rational_affine_subspace.cc:96-125) -/
structure Constr where
  coeffs : List ℤ
  rel : Rel
  rhs : ℤ
  deriving DecidableEq, Repr

/-- A rational point satisfies a constraint. (rational_affine_subspace.cc:96-125) -/
def Constr.Sat (c : Constr) (x : List ℚ) : Prop :=
  match c.rel with
  | .eq => dot (c.coeffs.map (fun (z : ℤ) => (z : ℚ))) x = c.rhs
  | .ge => dot (c.coeffs.map (fun (z : ℤ) => (z : ℚ))) x ≥ c.rhs
  | .gt => dot (c.coeffs.map (fun (z : ℤ) => (z : ℚ))) x > c.rhs

/-- `x` is a point of the polyhedron of dimension `n` given by constraints. (impl/rational_affine_subspace.hpp:71) -/
def InPoly (n : ℕ) (cs : List Constr) (x : List ℚ) : Prop :=
  x.length = n ∧ ∀ c ∈ cs, c.Sat x

/-- PPL's `MIP_Problem_Status`. (rational_affine_subspace.cc:188) -/
inductive MIPStatus | unfeasible | unbounded | optimized
  deriving DecidableEq, Repr

/-- The functions of the PPL that are used. A polyhedron is given by its space dimension and a list
of constraints, a cone by its list of rays. (rational_affine_subspace.cc:109-212) -/
structure PPL where
  /-- `NNC_Polyhedron::is_empty` -/
  isEmpty : ℕ → List Constr → Bool
  /-- `NNC_Polyhedron::is_bounded` -/
  isBounded : ℕ → List Constr → Bool
  /-- `NNC_Polyhedron::minimized_constraints` -/
  minimized : ℕ → List Constr → List Constr
  /-- Whether `minimized_generators` of the cone generated by rays at the origin contains a line. -/
  coneHasLine : ℕ → List (List ℤ) → Bool
  /-- `MIP_Problem::solve`, maximizing `objective` with all variables integer. -/
  mipMaximize : ℕ → List Constr → List ℤ → MIPStatus

/-- Vector addition. (rational_affine_subspace.cc:152-167) -/
def vadd (x y : List ℚ) : List ℚ := List.zipWith (· + ·) x y
/-- Scalar multiplication. (rational_affine_subspace.cc:152-167) -/
def smul (c : ℚ) (x : List ℚ) : List ℚ := x.map (c * ·)

/-- `v` is in the cone generated by `rays` (in dimension `n`): a combination with non-negative
coefficients. (rational_affine_subspace.cc:152-167) -/
def InCone (n : ℕ) (rays : List (List ℤ)) (v : List ℚ) : Prop :=
  ∃ a : List ℚ, a.length = rays.length ∧ (∀ c ∈ a, 0 ≤ c) ∧
    v = (List.zip a rays).foldr (fun p acc => vadd (smul p.1 (p.2.map (fun (z : ℤ) => (z : ℚ)))) acc)
      (List.replicate n 0)

/-- Specification of the PPL functions. (rational_affine_subspace.cc:109-212) -/
structure PPL.Lawful (L : PPL) : Prop where
  isEmpty_iff : ∀ n cs, L.isEmpty n cs = true ↔ ¬ ∃ x, InPoly n cs x
  isBounded_iff : ∀ n cs, L.isBounded n cs = true ↔
    ∃ B : ℚ, ∀ x, InPoly n cs x → ∀ c ∈ x, -B ≤ c ∧ c ≤ B
  /-- For a polyhedron that is a linear subspace: a minimal system of linear homogeneous equations
  for the same subspace. -/
  minimized_spec : ∀ n cs, (∀ c ∈ cs, c.rel = .eq ∧ c.rhs = 0 ∧ c.coeffs.length = n) →
    (∀ c ∈ L.minimized n cs, c.rel = .eq ∧ c.rhs = 0 ∧ c.coeffs.length = n) ∧
      ∀ x, InPoly n (L.minimized n cs) x ↔ InPoly n cs x
  coneHasLine_iff : ∀ n rays, (∀ r ∈ rays, r.length = n) →
    (L.coneHasLine n rays = true ↔
      ∃ v, InCone n rays v ∧ InCone n rays (smul (-1) v) ∧ ∃ c ∈ v, c ≠ 0)
  mip_unbounded_iff : ∀ n cs (obj : List ℤ), L.mipMaximize n cs obj = .unbounded ↔
    ∀ B : ℚ, ∃ x, InPoly n cs x ∧ (∀ c ∈ x, ∃ z : ℤ, c = z) ∧
      B < dot (obj.map (fun (z : ℤ) => (z : ℚ))) x

/-- The common denominator computed in rational_affine_subspace.cc:60-63. -/
def commonDen (vec : List ℚ) (rhs : ℚ) : ℕ :=
  vec.foldl (fun den c => Nat.lcm den c.den) rhs.den

/-- rational_affine_subspace.cc:59-77 `linearExpressionFromVector`: multiply by the common
denominator, assert that all entries became integers, return the integer vector and the integer
right hand side. -/
def linearExpressionFromVector (vec : List ℚ) (rhs : ℚ) : M (List ℤ × ℤ) := do
  let den := commonDen vec rhs
  let nums ← vec.mapM (fun c => do
    let num : ℚ := den * c
    assertM (num.den = 1)
    return num.num)
  let r := rhs * den
  assertM (r.den = 1)
  return (nums, r.num)

/-- Model of the data of `RationalAffineSubspace`: the polyhedron `subspace` (space dimension and
constraints) and the flag `homogeneous`. (impl/rational_affine_subspace.hpp:70-75) -/
structure Subspace where
  dim : ℕ
  constraints : List Constr
  homogeneous : Bool
  deriving DecidableEq, Repr

namespace Subspace

/-- rational_affine_subspace.cc:95-107: construction from equations.  The space dimension of the
polyhedron is the largest dimension of a constraint, i.e., the largest number of columns. -/
def ofEquations (equations : List (List ℚ)) (y : List ℚ) : M Subspace := do
  let homogeneous := y.all (fun v => v = 0)
  if equations.length = y.length then
    let cs ← (equations.zip y).mapM (fun p => do
      let (linear, rhs) ← linearExpressionFromVector p.1 p.2
      return (⟨linear, .eq, rhs⟩ : Constr))
    return ⟨(equations.map List.length).foldl max 0, cs, homogeneous⟩
  else .error .invalidArgument

/-- The constraint `Variable(i) (rel) 0` in dimension `n`. (rational_affine_subspace.cc:113 and 122) -/
def unitConstr (n i : ℕ) (rel : Rel) : Constr :=
  ⟨(List.range n).map (fun k => if k = i then 1 else 0), rel, 0⟩

/-- rational_affine_subspace.cc:109-116 -/
def positive (s : Subspace) : List Constr := (List.range s.dim).map (fun i => unitConstr s.dim i .gt)

/-- rational_affine_subspace.cc:118-125 -/
def nonNegative (s : Subspace) : List Constr :=
  (List.range s.dim).map (fun i => unitConstr s.dim i .ge)

/-- rational_affine_subspace.cc:134-141, strategy PPL_POLYHEDRON. -/
def hasNonZeroNonNegativeVectorPolyhedron (L : PPL) (s : Subspace) : M Bool :=
  if !s.homogeneous then .error .logicError
  else if s.dim = 0 then .ok false
  else .ok (!L.isBounded s.dim (s.constraints ++ s.nonNegative))

/-- The loop over the coordinates of rational_affine_subspace.cc:154-165 (strategy QUOTIENT): `none` if a column is
zero, otherwise the rays. -/
def columns (equations : List Constr) : List ℕ → Option (List (List ℤ))
  | [] => some []
  | i :: is =>
    let linear := equations.map (fun e => e.coeffs.getD i 0)
    if linear.all (fun z => z = 0) then none
    else (columns equations is).map (linear :: ·)

/-- rational_affine_subspace.cc:142-167, strategy PPL_QUOTIENT. The assertion in line 147 that
compares the number of equations to the codimension is added in `Model/Codimension`. -/
def hasNonZeroNonNegativeVectorQuotient (L : PPL) (s : Subspace) : M Bool :=
  if !s.homogeneous then .error .logicError
  else if s.dim = 0 then .ok false
  else do
    let equations := L.minimized s.dim s.constraints
    assertM (equations.all (fun e => e.rel = .eq))
    assertM (equations.all (fun e => e.rhs = 0))
    if equations = [] then .ok true
    else
      match columns equations (List.range s.dim) with
      | none => .ok true
      | some rays => .ok (L.coneHasLine equations.length rays)

/-- rational_affine_subspace.cc:168-188, strategy PPL_MIP. -/
def hasNonZeroNonNegativeVectorMIP (L : PPL) (s : Subspace) : M Bool :=
  if !s.homogeneous then .error .logicError
  else if s.dim = 0 then .ok false
  else .ok (L.mipMaximize s.dim (s.nonNegative ++ s.constraints) (List.replicate s.dim 1) = .unbounded)

/-- rational_affine_subspace.cc:127-133: the default strategy is PPL_MIP. -/
def hasNonZeroNonNegativeVector (L : PPL) (s : Subspace) : M Bool :=
  hasNonZeroNonNegativeVectorMIP L s

/-- rational_affine_subspace.cc:194-198 -/
def hasNonNegativeVector (L : PPL) (s : Subspace) : Bool :=
  !L.isEmpty s.dim (s.constraints ++ s.nonNegative)

/-- rational_affine_subspace.cc:200-208 -/
def hasPositiveVector (L : PPL) (s : Subspace) : Bool :=
  if s.dim = 0 then false else !L.isEmpty s.dim (s.constraints ++ s.positive)

end Subspace

end Verif
