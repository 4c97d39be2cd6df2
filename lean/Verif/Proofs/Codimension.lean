import Verif.Model.Codimension
import Verif.Proofs.Subspace
import Mathlib.LinearAlgebra.Matrix.Rank

/-!
# The codimension of a subspace is the number of irredundant equations
-/

namespace Verif

theorem dot_ofFn : ∀ {n : ℕ} (a : List ℚ) (x : Fin n → ℚ), dot a (List.ofFn x) = ∑ i : Fin n, a.getD i 0 * x i
  | 0, a, x => by simp
  | n + 1, [], x => by simp
  | n + 1, a :: as, x => by
    rw [List.ofFn_succ, dot_cons, dot_ofFn as, Fin.sum_univ_succ]
    simp

/-- A homogeneous linear equation. -/
def Constr.HomEq (n : ℕ) (c : Constr) : Prop := c.rel = .eq ∧ c.rhs = 0 ∧ c.coeffs.length = n

/-- The matrix of a system of equations. -/
def matrixOf (n : ℕ) (cs : List Constr) : Matrix (Fin cs.length) (Fin n) ℚ :=
  fun j i => ((cs[j]).coeffs.map (fun (z : ℤ) => (z : ℚ))).getD i 0

theorem Constr.HomEq.sat {n : ℕ} {c : Constr} (h : c.HomEq n) (x : List ℚ) :
    c.Sat x ↔ dot (c.coeffs.map (fun (z : ℤ) => (z : ℚ))) x = 0 := by
  simp [Constr.Sat, h.1, h.2.1]

theorem inPoly_iff {n : ℕ} {cs : List Constr} (h : ∀ c ∈ cs, c.HomEq n) (x : Fin n → ℚ) :
    InPoly n cs (List.ofFn x) ↔ ∀ j, (matrixOf n cs).row j ⬝ᵥ x = 0 := by
  simp only [InPoly, List.length_ofFn, true_and]
  constructor
  · intro g j
    have := ((h _ (List.getElem_mem j.2)).sat _).mp (g _ (List.getElem_mem j.2))
    rw [dot_ofFn] at this
    exact this
  · intro g c hc
    obtain ⟨j, hj, rfl⟩ := List.mem_iff_getElem.mp hc
    refine ((h _ hc).sat _).mpr ?_
    rw [dot_ofFn]
    exact g ⟨j, hj⟩

/-- Irredundant equations are linearly independent. -/
theorem linearIndependent_of_irredundant {n : ℕ} {cs : List Constr} (h : ∀ c ∈ cs, c.HomEq n)
    (hi : ∀ i, i < cs.length → ∃ x, InPoly n (cs.eraseIdx i) x ∧ ¬ InPoly n cs x) :
    LinearIndependent ℚ (matrixOf n cs).row := by
  rw [linearIndependent_iff_notMem_span]
  intro j hj
  obtain ⟨x, h1, h2⟩ := hi j j.2
  apply h2
  obtain ⟨y, rfl⟩ : ∃ y : Fin n → ℚ, x = List.ofFn y := by
    obtain ⟨hl, -⟩ := h1
    subst hl
    exact ⟨x.get, (List.ofFn_get x).symm⟩
  have hk : ∀ k, k ≠ j → (matrixOf n cs).row k ⬝ᵥ y = 0 := by
    intro k hk
    have hm : cs[k] ∈ cs.eraseIdx j := by
      rw [List.mem_eraseIdx_iff_getElem]
      exact ⟨k, k.2, fun e => hk (Fin.ext e), rfl⟩
    have := ((h _ (List.getElem_mem k.2)).sat _).mp (h1.2 _ hm)
    rw [dot_ofFn] at this
    exact this
  rw [inPoly_iff h]
  intro k
  by_cases hkj : k = j
  · subst hkj
    have : ∀ v ∈ Submodule.span ℚ ((matrixOf n cs).row '' (Set.univ \ {k})), v ⬝ᵥ y = 0 := by
      intro v hv
      induction hv using Submodule.span_induction with
      | mem v hv =>
        obtain ⟨l, hl, rfl⟩ := hv
        exact hk l (by simpa using hl)
      | zero => simp
      | add a b _ _ ha hb => rw [add_dotProduct, ha, hb, add_zero]
      | smul c a _ ha => rw [smul_dotProduct, ha, smul_zero]
    exact this _ hj
  · exact hk k hkj

/-- The dimension of the space of solutions of irredundant equations. -/
theorem finrank_solutions {n : ℕ} {cs : List Constr} (h : ∀ c ∈ cs, c.HomEq n)
    (hi : ∀ i, i < cs.length → ∃ x, InPoly n (cs.eraseIdx i) x ∧ ¬ InPoly n cs x) :
    Module.finrank ℚ (Submodule.span ℚ {x : Fin n → ℚ | InPoly n cs (List.ofFn x)}) + cs.length = n := by
  have hs : {x : Fin n → ℚ | InPoly n cs (List.ofFn x)} = (LinearMap.ker (matrixOf n cs).mulVecLin : Set (Fin n → ℚ)) := by
    ext x
    rw [Set.mem_setOf_eq, inPoly_iff h, SetLike.mem_coe, LinearMap.mem_ker, Matrix.mulVecLin_apply, funext_iff]
    exact Iff.rfl
  rw [hs, Submodule.span_eq]
  have h1 := LinearMap.finrank_range_add_finrank_ker (matrixOf n cs).mulVecLin
  have h2 := (linearIndependent_of_irredundant h hi).rank_matrix
  rw [Matrix.rank] at h2
  rw [h2, Module.finrank_fin_fun, Fintype.card_fin] at h1
  omega

/-- Every system of equations has an equivalent irredundant subsystem. -/
theorem exists_irredundant (n : ℕ) (cs : List Constr) :
    ∃ ds : List Constr, (∀ c ∈ ds, c ∈ cs) ∧ (∀ x, InPoly n ds x ↔ InPoly n cs x) ∧
      ∀ i, i < ds.length → ∃ x, InPoly n (ds.eraseIdx i) x ∧ ¬ InPoly n ds x := by
  induction hl : cs.length using Nat.strong_induction_on generalizing cs with
  | _ l ih =>
    by_cases h : ∀ i, i < cs.length → ∃ x, InPoly n (cs.eraseIdx i) x ∧ ¬ InPoly n cs x
    · exact ⟨cs, fun _ => id, fun _ => Iff.rfl, h⟩
    · push Not at h
      obtain ⟨i, hi, h⟩ := h
      obtain ⟨ds, d1, d2, d3⟩ := ih (cs.eraseIdx i).length
        (by rw [List.length_eraseIdx, if_pos hi]; omega) _ rfl
      exact ⟨ds, fun c hc => List.mem_of_mem_eraseIdx (d1 c hc),
        fun x => (d2 x).trans ⟨h x, fun g => ⟨g.1, fun c hc => g.2 c (List.mem_of_mem_eraseIdx hc)⟩⟩, d3⟩

/-- A PPL that does what it should and minimizes systems of equations. -/
noncomputable def PPL.reduced : PPL := { PPL.ideal with minimized := fun n cs => (exists_irredundant n cs).choose }

theorem PPL.reduced_lawful : PPL.reduced.Lawful where
  isEmpty_iff := PPL.ideal_lawful.isEmpty_iff
  isBounded_iff := PPL.ideal_lawful.isBounded_iff
  minimized_spec n cs h := ⟨fun c hc => h c ((exists_irredundant n cs).choose_spec.1 c hc), (exists_irredundant n cs).choose_spec.2.1⟩
  coneHasLine_iff := PPL.ideal_lawful.coneHasLine_iff
  mip_unbounded_iff := PPL.ideal_lawful.mip_unbounded_iff

/-- The dimension that the PPL should compute. -/
noncomputable def PPLDim.ideal : PPLDim where
  affineDimension n cs := Module.finrank ℚ (Submodule.span ℚ {x : Fin n → ℚ | InPoly n cs (List.ofFn x)})

theorem PPLDim.ideal_lawful : PPLDim.ideal.Lawful PPL.reduced where
  affineDimension_eq _ _ _ := rfl
  irredundant n cs _ := (exists_irredundant n cs).choose_spec.2.2

/-- The assertion about the codimension changes nothing. -/
theorem quotientAsserted_eq {L : PPL} (hL : L.Lawful) {D : PPLDim} (hD : D.Lawful L) (s : Subspace)
    (hh : s.homogeneous = true → ∀ c ∈ s.constraints, c.HomEq s.dim) :
    s.hasNonZeroNonNegativeVectorQuotientAsserted L D = s.hasNonZeroNonNegativeVectorQuotient L := by
  unfold Subspace.hasNonZeroNonNegativeVectorQuotientAsserted Subspace.hasNonZeroNonNegativeVectorQuotient
  by_cases h : s.homogeneous = true
  · have hc := hh h
    obtain ⟨m1, m2⟩ := hL.minimized_spec s.dim s.constraints hc
    have hf := finrank_solutions m1 (hD.irredundant s.dim s.constraints hc)
    have : {x : Fin s.dim → ℚ | InPoly s.dim (L.minimized s.dim s.constraints) (List.ofFn x)} =
        {x : Fin s.dim → ℚ | InPoly s.dim s.constraints (List.ofFn x)} := by
      ext x; exact m2 _
    rw [this, ← hD.affineDimension_eq _ _ hc] at hf
    have ha : (D.affineDimension s.dim s.constraints : ℤ) = (s.dim : ℤ) - (L.minimized s.dim s.constraints).length := by omega
    simp only [ha, assertM, if_true, decide_true]
    rfl
  · simp [h]

end Verif
