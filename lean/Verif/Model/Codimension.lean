import Verif.Model.Subspace
import Mathlib.LinearAlgebra.Dimension.Finrank
import Mathlib.LinearAlgebra.Span.Basic

/-!
# Model of the strategy PPL_QUOTIENT with all its assertions

`Model/Subspace` leaves out the assertion that compares the number of equations to the codimension of the subspace, since it
depends on more of the PPL than the answer itself.
-/

namespace Verif

/-- A further function of the PPL. (rational_affine_subspace.cc:147) -/
structure PPLDim where
  /-- `NNC_Polyhedron::affine_dimension` -/
  affineDimension : ℕ → List Constr → ℕ

/-- Specification: the affine dimension of a linear subspace is the dimension of the space of its vectors; the minimized
constraints of a linear subspace are irredundant, i.e., the space gets larger if any of them is left out.
(rational_affine_subspace.cc:143 and 147) -/
structure PPLDim.Lawful (L : PPL) (D : PPLDim) : Prop where
  affineDimension_eq : ∀ n cs, (∀ c ∈ cs, c.rel = .eq ∧ c.rhs = 0 ∧ c.coeffs.length = n) →
    D.affineDimension n cs = Module.finrank ℚ (Submodule.span ℚ {x : Fin n → ℚ | InPoly n cs (List.ofFn x)})
  irredundant : ∀ n cs, (∀ c ∈ cs, c.rel = .eq ∧ c.rhs = 0 ∧ c.coeffs.length = n) →
    ∀ i, i < (L.minimized n cs).length →
      ∃ x, InPoly n ((L.minimized n cs).eraseIdx i) x ∧ ¬ InPoly n (L.minimized n cs) x

namespace Subspace

/-- rational_affine_subspace.cc:142-167, strategy PPL_QUOTIENT with the assertion in line 147.  The difference in that line is
computed with integers; in the code it is unsigned, so if there were more equations than dimensions it would be too large to
be an affine dimension. -/
def hasNonZeroNonNegativeVectorQuotientAsserted (L : PPL) (D : PPLDim) (s : Subspace) : M Bool :=
  if !s.homogeneous then .error .logicError
  else if s.dim = 0 then .ok false
  else do
    let equations := L.minimized s.dim s.constraints
    assertM (equations.all (fun e => e.rel = .eq))
    assertM (equations.all (fun e => e.rhs = 0))
    assertM ((D.affineDimension s.dim s.constraints : ℤ) = (s.dim : ℤ) - equations.length)
    if equations = [] then .ok true
    else
      match columns equations (List.range s.dim) with
      | none => .ok true
      | some rays => .ok (L.coneHasLine equations.length rays)

end Subspace

end Verif
