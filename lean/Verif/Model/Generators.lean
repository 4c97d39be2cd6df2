import Verif.Model.Subspace

/-!
# Model of `RationalAffineSubspace`: construction from generators, comparison

The parts of the PPL that are needed here are not needed for subspaces that are given by equations, so they form a record
of their own (`PPLGen`), with its specification `PPLGen.Lawful`.
-/

namespace Verif

/-- `x` is a vector with `n` entries that is a linear combination of generators with rational coefficients; generators with
less than `n` entries are filled up with zeros. (impl/rational_affine_subspace.hpp:41-42) -/
def IsCombination (n : ℕ) (generators : List (List ℚ)) (x : List ℚ) : Prop :=
  x.length = n ∧ ∃ a : List ℚ, a.length = generators.length ∧
    ∀ i, i < n → x.getD i 0 = (List.zipWith (fun c g => c * g.getD i 0) a generators).sum

/-- Further functions of the PPL. (rational_affine_subspace.cc:84-94) -/
structure PPLGen where
  /-- The constraints of `NNC_Polyhedron(gens)` for a generator system that consists of the origin and lines. -/
  constraints : ℕ → List (List ℤ) → List Constr
  /-- `operator==` on `NNC_Polyhedron` -/
  equal : ℕ → List Constr → ℕ → List Constr → Bool

/-- Specification of these functions.  Polyhedra in spaces of different dimension do not compare equal. (rational_affine_subspace.cc:84-94) -/
structure PPLGen.Lawful (G : PPLGen) : Prop where
  constraints_spec : ∀ n lines, (∀ l ∈ lines, l.length ≤ n) →
    (∀ c ∈ G.constraints n lines, c.rel = .eq ∧ c.rhs = 0 ∧ c.coeffs.length = n) ∧
      ∀ x, InPoly n (G.constraints n lines) x ↔ IsCombination n (lines.map (List.map (fun (z : ℤ) => (z : ℚ)))) x
  equal_iff : ∀ n cs m ds, G.equal n cs m ds = true ↔ n = m ∧ ∀ x, InPoly n cs x ↔ InPoly m ds x

namespace Subspace

/-- rational_affine_subspace.cc:82: the default constructor, the space ℚ⁰. -/
def default : Subspace := ⟨0, [], true⟩

/-- rational_affine_subspace.cc:84-94: construction from generators.  Generators that are zero are not inserted; the space
dimension of the polyhedron is the largest dimension of a generator that has been inserted. -/
def ofGenerators (G : PPLGen) (generators : List (List ℚ)) : M Subspace := do
  let linears ← generators.mapM (fun g => do
    let (linear, _) ← linearExpressionFromVector g 0
    return linear)
  let lines := linears.filter (fun linear => !linear.all (fun z => z = 0))
  let dim := (lines.map List.length).foldl max 0
  return ⟨dim, G.constraints dim lines, true⟩

/-- rational_affine_subspace.cc:210-212: `operator==`; the flag `homogeneous` is not compared. -/
def equal (G : PPLGen) (s t : Subspace) : Bool := G.equal s.dim s.constraints t.dim t.constraints

end Subspace

end Verif
