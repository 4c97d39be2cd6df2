import Verif.Model.Subspace

/-!
# Model of `swap` and `elementaryTransformation` of `RationalAffineSubspace`

A polyhedron of the PPL appears as its set of rational points.
-/

namespace Verif

/-- A polyhedron: space dimension and points. (impl/rational_affine_subspace.hpp:71) -/
structure Poly where
  dim : ℕ
  pts : List ℚ → Prop

/-- The polyhedron underlying a `RationalAffineSubspace`. (impl/rational_affine_subspace.hpp:71) -/
def Subspace.poly (s : Subspace) : Poly := ⟨s.dim, InPoly s.dim s.constraints⟩

/-- libintervalxt/src/rational_affine_subspace.cc:48-57 `SwapDimensions::maps`. -/
def swapDimensions (i j x : ℕ) : ℕ := if x = i then j else i

/-- `Polyhedron::map_space_dimensions` of the PPL for a total function `f` with codomain of size `dim`.  Its documentation requires
that `f` is injective; if it is not, or has values outside of the codomain, the behaviour is undefined.  The
coordinate `k` of a point becomes the coordinate `f k`. (rational_affine_subspace.cc:215) -/
def Poly.mapSpaceDimensions (p : Poly) (f : ℕ → ℕ) : M Poly :=
  if p.dim = 0 then .ok p
  else if (List.range p.dim).all (fun k => f k < p.dim) ∧ ((List.range p.dim).map f).Nodup then
    .ok ⟨p.dim, fun y => y.length = p.dim ∧ ∃ x, p.pts x ∧ x.length = p.dim ∧ ∀ k < p.dim, y.getD (f k) 0 = x.getD k 0⟩
  else .error .ub

/-- rational_affine_subspace.cc:214-216 `swap`.  Negative arguments, which are rejected by `numeric_cast`, are not
modelled. -/
def Poly.swap (p : Poly) (i j : ℕ) : M Poly := p.mapSpaceDimensions (swapDimensions i j)

/-- `Polyhedron::affine_image(var, expr, den)` of the PPL: `var` is replaced by `expr / den`; throws if a dimension is out of
range. (rational_affine_subspace.cc:219) -/
def Poly.affineImage (p : Poly) (i : ℕ) (expr : List ℚ) (den : ℤ) : M Poly :=
  if den = 0 ∨ p.dim ≤ i ∨ p.dim < expr.length then .error .invalidArgument
  else .ok ⟨p.dim, fun y => ∃ x, p.pts x ∧ y = x.set i (dot expr x / den)⟩

/-- The linear expression `a * Variable(i) + b * Variable(j)`. (rational_affine_subspace.cc:219) -/
def linear2 (i j : ℕ) (a b : ℚ) : List ℚ :=
  (List.range (max i j + 1)).map (fun k => (if k = i then a else 0) + (if k = j then b else 0))

/-- rational_affine_subspace.cc:218-220 `elementaryTransformation`. -/
def Poly.elementaryTransformation (p : Poly) (i j : ℕ) (c : ℚ) : M Poly :=
  p.affineImage i (linear2 i j c.den c.num) c.den

end Verif
