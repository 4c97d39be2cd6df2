import Verif.Proofs.Codimension
import Verif.Props.Subspace

/-!
# C101: the assertions of the strategy PPL_QUOTIENT never fail
-/

namespace Verif

theorem ofEquations_homEq {equations : List (List ℚ)} {y : List ℚ} (h : equations.length = y.length)
    {n : ℕ} (hn : ∀ e ∈ equations, e.length = n) {S : Subspace} (hS : Subspace.ofEquations equations y = .ok S) :
    S.homogeneous = true → ∀ c ∈ S.constraints, c.HomEq S.dim := by
  obtain ⟨S₁, h1, h2, h3, h4, h5, h6, h7⟩ := ofEquations_spec equations y h
  rw [h1] at hS
  cases hS
  intro hh c hc
  refine ⟨(h5 hh c hc).1, (h5 hh c hc).2, ?_⟩
  rw [h6 n hn c hc, h2]
  symm
  apply foldl_max_const
  · intro x hx
    obtain ⟨e, he, rfl⟩ := List.mem_map.mp hx
    exact hn e he
  · rintro he
    have : equations = [] := by simpa using he
    rw [this] at h4
    simp at h4
    rw [h4] at hc
    cases hc
  · omega

/-- **C101** The strategy PPL_QUOTIENT with all its assertions throws for systems that are not homogeneous; otherwise no
assertion fails and it decides whether there is a solution that is non-negative and not zero. -/
theorem C101_quotient {L : PPL} (hL : L.Lawful) {D : PPLDim} (hD : D.Lawful L) (equations : List (List ℚ)) (y : List ℚ)
    (h : equations.length = y.length) {n : ℕ} (hn : ∀ e ∈ equations, e.length = n) (he : equations ≠ []) :
    ∃ S, Subspace.ofEquations equations y = .ok S ∧
      ((∃ v ∈ y, v ≠ 0) → S.hasNonZeroNonNegativeVectorQuotientAsserted L D = .error .logicError) ∧
      ((∀ v ∈ y, v = 0) → ∃ b, S.hasNonZeroNonNegativeVectorQuotientAsserted L D = .ok b ∧
        (b = true ↔ ∃ x : List ℚ, x.length = n ∧ (∀ e ∈ equations, dot e x = 0) ∧ (∀ v ∈ x, 0 ≤ v) ∧ ∃ v ∈ x, v ≠ 0)) := by
  obtain ⟨S, h1, h2, h3⟩ := C31_nonZero hL equations y h hn he
  have hq : S.hasNonZeroNonNegativeVectorQuotientAsserted L D = S.hasNonZeroNonNegativeVector L :=
    (quotientAsserted_eq hL hD S (ofEquations_homEq h hn h1)).trans (C32_strategies hL equations y h hn h1).2
  exact ⟨S, h1, fun hv => hq.trans (h2 hv), fun hv => by rw [hq]; exact h3 hv⟩

/-- **C101** The number of equations that are left after minimization is the codimension: together with the number of vectors
in any basis of the space of solutions it is the number of variables. -/
theorem C101_codimension {L : PPL} (hL : L.Lawful) {D : PPLDim} (hD : D.Lawful L) (equations : List (List ℚ)) (y : List ℚ)
    (h : equations.length = y.length) {n : ℕ} (hn : ∀ e ∈ equations, e.length = n) (he : equations ≠ [])
    (hy : ∀ v ∈ y, v = 0) {S : Subspace} (hS : Subspace.ofEquations equations y = .ok S) :
    D.affineDimension S.dim S.constraints + (L.minimized S.dim S.constraints).length = n ∧
      (L.minimized S.dim S.constraints).length = (Matrix.of (fun (j : Fin equations.length) (i : Fin n) => equations[j].getD i 0)).rank := by
  have hc := ofEquations_homEq h hn hS
  obtain ⟨S₁, h1, h2, h3, h4, h5, h6, h7⟩ := ofEquations_spec equations y h
  rw [h1] at hS
  cases hS
  have hdim : S.dim = n := by
    rw [h2]
    apply foldl_max_const
    · intro x hx
      obtain ⟨e, he, rfl⟩ := List.mem_map.mp hx
      exact hn e he
    · simpa using he
    · omega
  subst hdim
  replace hc := hc (h3.mpr hy)
  obtain ⟨m1, m2⟩ := hL.minimized_spec S.dim S.constraints hc
  have hf := finrank_solutions m1 (hD.irredundant S.dim S.constraints hc)
  have hm : {x : Fin S.dim → ℚ | InPoly S.dim (L.minimized S.dim S.constraints) (List.ofFn x)} =
      {x : Fin S.dim → ℚ | InPoly S.dim S.constraints (List.ofFn x)} := by
    ext x; exact m2 _
  rw [hm] at hf
  refine ⟨by rw [hD.affineDimension_eq _ _ hc]; exact hf, ?_⟩
  set A := Matrix.of (fun (j : Fin equations.length) (i : Fin S.dim) => equations[j].getD i 0) with hA
  have hs : {x : Fin S.dim → ℚ | InPoly S.dim S.constraints (List.ofFn x)} = (LinearMap.ker A.mulVecLin : Set (Fin S.dim → ℚ)) := by
    ext x
    rw [SetLike.mem_coe, LinearMap.mem_ker, Matrix.mulVecLin_apply, funext_iff]
    refine Iff.trans (b := Solves equations y (List.ofFn x)) ⟨fun g => (h7 _).mp g.2, fun g => ⟨by simp, (h7 _).mpr g⟩⟩ ?_
    constructor
    · intro g j
      have hj : (j : ℕ) < y.length := h ▸ j.2
      have := g (equations[j], y[(j : ℕ)]) (List.mem_iff_getElem.mpr ⟨j, by simp; omega, by simp⟩)
      rw [dot_ofFn, hy _ (List.getElem_mem hj)] at this
      exact this
    · intro g p hp
      obtain ⟨j, hj, rfl⟩ := List.mem_iff_getElem.mp hp
      simp only [List.length_zip, lt_inf_iff] at hj
      have := g ⟨j, hj.1⟩
      simp only [List.getElem_zip]
      rw [dot_ofFn, hy _ (List.getElem_mem hj.2)]
      exact this
  rw [hs, Submodule.span_eq] at hf
  have h8 := LinearMap.finrank_range_add_finrank_ker A.mulVecLin
  rw [Module.finrank_fin_fun] at h8
  rw [Matrix.rank]
  omega

/-- The equations `x + y = 0`, `2x + 2y = 0`: one of them is left, no assertion fails, and there is no non-negative solution
other than zero. -/
example : ∃ S, Subspace.ofEquations [[1, 1], [2, 2]] [0, 0] = .ok S ∧
    S.hasNonZeroNonNegativeVectorQuotientAsserted PPL.reduced PPLDim.ideal = .ok false := by
  obtain ⟨S, h1, _, h3⟩ := C101_quotient PPL.reduced_lawful PPLDim.ideal_lawful [[1, 1], [2, 2]] [0, 0] rfl (n := 2) (by simp)
    (by simp)
  obtain ⟨b, g1, g2⟩ := h3 (by simp)
  refine ⟨S, h1, ?_⟩
  rw [g1]
  cases b
  · rfl
  · obtain ⟨x, x1, x2, x3, v, x4, x5⟩ := g2.mp rfl
    obtain ⟨a, b, rfl⟩ := List.length_eq_two.mp x1
    have e := x2 [1, 1] (by simp)
    simp [dot] at e x3 x4
    exfalso
    apply x5
    rcases x4 with rfl | rfl <;> linarith

/-- If the equations were not minimized, the assertion would fail for this system. -/
example : ∃ S, Subspace.ofEquations [[1, 1], [2, 2]] [0, 0] = .ok S ∧
    S.hasNonZeroNonNegativeVectorQuotientAsserted PPL.ideal PPLDim.ideal = .error .assertFailed := by
  refine ⟨⟨2, [⟨[1, 1], .eq, 0⟩, ⟨[2, 2], .eq, 0⟩], true⟩, by decide +kernel, ?_⟩
  have h : PPLDim.ideal.affineDimension 2 [⟨[1, 1], .eq, 0⟩, ⟨[2, 2], .eq, 0⟩] ≠ 0 := by
    refine Nat.one_le_iff_ne_zero.mp (Submodule.one_le_finrank_iff.mpr fun hb => ?_)
    have hx : (![1, -1] : Fin 2 → ℚ) ∈ Submodule.span ℚ {x : Fin 2 → ℚ |
        InPoly 2 [⟨[1, 1], .eq, 0⟩, ⟨[2, 2], .eq, 0⟩] (List.ofFn x)} :=
      Submodule.subset_span ⟨rfl, by simp [Constr.Sat, dot]⟩
    rw [hb, Submodule.mem_bot] at hx
    simpa using congrFun hx 0
  simp [Subspace.hasNonZeroNonNegativeVectorQuotientAsserted, PPL.ideal, assertM, h, bind, Except.bind]

end Verif
