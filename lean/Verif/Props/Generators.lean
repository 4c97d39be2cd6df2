import Verif.Proofs.Generators
import Verif.Proofs.Subspace
import Mathlib.Tactic.IntervalCases

/-!
# C84: subspaces given by generators, comparison of subspaces

The specification consists of `IsCombination` (linear combinations with rational coefficients) and `dot` (scalar products).
-/

namespace Verif

theorem isCombination_zero {n : ℕ} {gens : List (List ℚ)} (h : ¬ ∃ g ∈ gens, ∃ v ∈ g, v ≠ 0) (x : List ℚ) :
    IsCombination n gens x ↔ x = List.replicate n 0 := by
  have hs : spanOf n gens = ⊥ := by
    rw [eq_bot_iff]
    unfold spanOf
    rw [Submodule.span_le]
    rintro u ⟨g, hg, rfl⟩
    rw [vec_zero (fun v hv => by_contra fun hv0 => h ⟨g, hg, v, hv, hv0⟩)]
    exact Submodule.zero_mem _
  have hv : vec n (List.replicate n 0) = 0 := vec_zero (by simp)
  rw [isCombination_iff, hs, Submodule.mem_bot]
  constructor
  · rintro ⟨h1, h2⟩
    exact vec_inj h1 (by simp) (h2.trans hv.symm)
  · rintro rfl
    exact ⟨by simp, hv⟩

theorem isCombination_origin (n : ℕ) (gens : List (List ℚ)) : IsCombination n gens (List.replicate n 0) := by
  rw [isCombination_iff]
  exact ⟨by simp, by rw [vec_zero (by simp)]; exact Submodule.zero_mem _⟩

/-- The generators are in their span. -/
theorem isCombination_generator {n : ℕ} {gens : List (List ℚ)} {g : List ℚ} (hg : g ∈ gens) (hn : g.length = n) : IsCombination n gens g := by
  rw [isCombination_iff]
  exact ⟨hn, Submodule.subset_span ⟨g, hg, rfl⟩⟩

/-- **C84** A subspace can be constructed from any list of generators with the same number of entries. Its points are the
linear combinations of the generators. Its space dimension is the number of entries, unless all the generators are zero. -/
theorem C84_points {G : PPLGen} (hG : G.Lawful) (gens : List (List ℚ)) {n : ℕ} (hn : ∀ g ∈ gens, g.length = n) :
    ∃ S, Subspace.ofGenerators G gens = .ok S ∧
      ((∃ g ∈ gens, ∃ v ∈ g, v ≠ 0) → S.dim = n ∧ ∀ x, InPoly S.dim S.constraints x ↔ IsCombination n gens x) ∧
      ((∀ g ∈ gens, ∀ v ∈ g, v = 0) → S.dim = 0 ∧ ∀ x, InPoly S.dim S.constraints x ↔ x = []) := by
  obtain ⟨S, h1, h2, h3, h4, h5⟩ := ofGenerators_spec hG gens hn
  refine ⟨S, h1, ?_, ?_⟩
  · intro h
    rw [if_pos h] at h3
    exact ⟨h3, fun x => by rw [h5, h3]⟩
  · intro h
    have hz : ¬ ∃ g ∈ gens, ∃ v ∈ g, v ≠ 0 := by
      rintro ⟨g, hg, v, hv, hv0⟩
      exact hv0 (h g hg v hv)
    rw [if_neg hz] at h3
    refine ⟨h3, fun x => ?_⟩
    rw [h5, h3, isCombination_zero hz]
    rfl

/-- **C84** `hasNonNegativeVector()`, `hasPositiveVector()` and `hasNonZeroNonNegativeVector()` decide whether a subspace that
is given by generators contains such a vector. -/
theorem C84_decides {L : PPL} (hL : L.Lawful) {G : PPLGen} (hG : G.Lawful) (gens : List (List ℚ)) {n : ℕ}
    (hn : ∀ g ∈ gens, g.length = n) (hn0 : 0 < n) :
    ∃ S, Subspace.ofGenerators G gens = .ok S ∧ S.hasNonNegativeVector L = true ∧
      (S.hasPositiveVector L = true ↔ ∃ x, IsCombination n gens x ∧ ∀ v ∈ x, 0 < v) ∧
      ∃ b, S.hasNonZeroNonNegativeVector L = .ok b ∧
        (b = true ↔ ∃ x, IsCombination n gens x ∧ (∀ v ∈ x, 0 ≤ v) ∧ ∃ v ∈ x, v ≠ 0) := by
  obtain ⟨S, h1, h2, h3, h4, h5⟩ := ofGenerators_spec hG gens hn
  refine ⟨S, h1, ?_, ?_, ?_⟩
  · rw [hasNonNegativeVector_iff hL]
    have := (h5 _).mpr (isCombination_origin S.dim gens)
    exact ⟨_, this.1, this.2, fun v hv => by rw [List.eq_of_mem_replicate hv]⟩
  · by_cases hz : ∃ g ∈ gens, ∃ v ∈ g, v ≠ 0
    · rw [if_pos hz] at h3
      rw [hasPositiveVector_iff hL S (by omega)]
      refine exists_congr fun x => ?_
      rw [← h3, ← h5, InPoly, and_assoc]
    · rw [if_neg hz] at h3
      simp only [Subspace.hasPositiveVector, h3, if_true, Bool.false_eq_true, false_iff]
      rintro ⟨x, hx, hp⟩
      rw [isCombination_zero hz] at hx
      subst hx
      have := hp 0 (by simp [hn0.ne'])
      exact lt_irrefl _ this
  · obtain ⟨b, g1, g2⟩ := hasNonZeroNonNegativeVectorMIP_iff hL S h2 (fun c hc => ⟨(h4 c hc).1, (h4 c hc).2.1⟩)
    refine ⟨b, g1, g2.trans ?_⟩
    by_cases hz : ∃ g ∈ gens, ∃ v ∈ g, v ≠ 0
    · rw [if_pos hz] at h3
      refine exists_congr fun x => ?_
      rw [← h3, ← h5, InPoly, and_assoc]
    · rw [if_neg hz] at h3
      constructor
      · rintro ⟨x, hx, _, _, v, hv, _⟩
        rw [h3, List.length_eq_zero_iff] at hx
        subst hx
        cases hv
      · rintro ⟨x, hx, _, v, hv, hv0⟩
        rw [isCombination_zero hz] at hx
        subst hx
        exact absurd (List.eq_of_mem_replicate hv) hv0

/-- **C84** For subspaces that are given by generators, too, the three strategies give the same answer. -/
theorem C84_strategies {L : PPL} (hL : L.Lawful) {G : PPLGen} (hG : G.Lawful) (gens : List (List ℚ)) {n : ℕ}
    (hn : ∀ g ∈ gens, g.length = n) {S : Subspace} (hS : Subspace.ofGenerators G gens = .ok S) :
    S.hasNonZeroNonNegativeVectorPolyhedron L = S.hasNonZeroNonNegativeVectorMIP L ∧
      S.hasNonZeroNonNegativeVectorQuotient L = S.hasNonZeroNonNegativeVectorMIP L := by
  obtain ⟨S', h1, h2, h3, h4, h5⟩ := ofGenerators_spec hG gens hn
  rw [hS] at h1
  cases h1
  have hh : S.Hom := fun c hc => ⟨(h4 c hc).1, (h4 c hc).2.1⟩
  obtain ⟨b1, a1, a2⟩ := hasNonZeroNonNegativeVectorPolyhedron_iff hL S h2 hh
  obtain ⟨b2, a3, a4⟩ := hasNonZeroNonNegativeVectorMIP_iff hL S h2 hh
  obtain ⟨b3, a5, a6⟩ := hasNonZeroNonNegativeVectorQuotient_iff hL S h2 hh (fun c hc => (h4 c hc).2.2)
  rw [a1, a3, a5]
  exact ⟨congrArg _ (Bool.eq_iff_iff.mpr (a2.trans a4.symm)), congrArg _ (Bool.eq_iff_iff.mpr (a6.trans a4.symm))⟩

/-- **C84** Two subspaces that are given by generators with the same number of entries compare equal if and only if the
generators have the same span. -/
theorem C84_equal {G : PPLGen} (hG : G.Lawful) (gens gens' : List (List ℚ)) {n : ℕ} (hn : ∀ g ∈ gens, g.length = n)
    (hn' : ∀ g ∈ gens', g.length = n) : ∃ S S', Subspace.ofGenerators G gens = .ok S ∧ Subspace.ofGenerators G gens' = .ok S' ∧
      (S.equal G S' = true ↔ ∀ x, IsCombination n gens x ↔ IsCombination n gens' x) := by
  obtain ⟨S, h1, h2, h3, h4, h5⟩ := ofGenerators_spec hG gens hn
  obtain ⟨S', h1', h2', h3', h4', h5'⟩ := ofGenerators_spec hG gens' hn'
  refine ⟨S, S', h1, h1', ?_⟩
  rw [Subspace.equal, hG.equal_iff]
  simp only [h5, h5']
  have key : ∀ {a b : List (List ℚ)}, (∀ g ∈ a, g.length = n) → (∃ g ∈ a, ∃ v ∈ g, v ≠ 0) → ¬ (∃ g ∈ b, ∃ v ∈ g, v ≠ 0) →
      ¬ ∀ x, IsCombination n a x ↔ IsCombination n b x := by
    rintro a b ha ⟨g, hg, v, hv, hv0⟩ hb h
    have := (h g).mp (isCombination_generator hg (ha g hg))
    rw [isCombination_zero hb] at this
    subst this
    exact hv0 (List.eq_of_mem_replicate hv)
  by_cases hz : ∃ g ∈ gens, ∃ v ∈ g, v ≠ 0 <;> by_cases hz' : ∃ g ∈ gens', ∃ v ∈ g, v ≠ 0
  · rw [if_pos hz] at h3; rw [if_pos hz'] at h3'
    rw [h3, h3']; simp
  · rw [if_pos hz] at h3; rw [if_neg hz'] at h3'
    refine ⟨fun h => ?_, fun h => absurd h (key hn hz hz')⟩
    obtain ⟨g, hg, v, hv, hv0⟩ := hz
    have := hn g hg
    rw [← h3, h.1, h3', List.length_eq_zero_iff] at this
    subst this
    cases hv
  · rw [if_neg hz] at h3; rw [if_pos hz'] at h3'
    refine ⟨fun h => ?_, fun h => absurd (fun x => (h x).symm) (key hn' hz' hz)⟩
    obtain ⟨g, hg, v, hv, hv0⟩ := hz'
    have := hn' g hg
    rw [← h3', ← h.1, h3, List.length_eq_zero_iff] at this
    subst this
    cases hv
  · rw [if_neg hz] at h3; rw [if_neg hz'] at h3'
    rw [h3, h3']
    simp only [isCombination_zero hz, isCombination_zero hz', implies_true, and_self]

/-- **C84** Two subspaces that are given by equations in the same number of unknowns compare equal if and only if the
equations have the same solutions. -/
theorem C84_equal_equations {G : PPLGen} (hG : G.Lawful) (eqs : List (List ℚ)) (y : List ℚ) (eqs' : List (List ℚ)) (y' : List ℚ)
    (h : eqs.length = y.length) (h' : eqs'.length = y'.length) {n : ℕ} (hn : ∀ e ∈ eqs, e.length = n)
    (hn' : ∀ e ∈ eqs', e.length = n) (hne : eqs ≠ []) (hne' : eqs' ≠ []) :
    ∃ S S', Subspace.ofEquations eqs y = .ok S ∧ Subspace.ofEquations eqs' y' = .ok S' ∧
      (S.equal G S' = true ↔ ∀ x : List ℚ, x.length = n →
        ((∀ p ∈ eqs.zip y, dot p.1 x = p.2) ↔ ∀ p ∈ eqs'.zip y', dot p.1 x = p.2)) := by
  obtain ⟨S, h1, h2, h3, h4, h5, h6, h7⟩ := ofEquations_spec eqs y h
  obtain ⟨S', h1', h2', h3', h4', h5', h6', h7'⟩ := ofEquations_spec eqs' y' h'
  have hdim : ∀ {E : List (List ℚ)}, (∀ e ∈ E, e.length = n) → E ≠ [] → (E.map List.length).foldl max 0 = n := by
    intro E hE hE'
    apply foldl_max_const
    · intro x hx
      obtain ⟨e, he, rfl⟩ := List.mem_map.mp hx
      exact hE e he
    · simpa using hE'
    · omega
  rw [hdim hn hne] at h2
  rw [hdim hn' hne'] at h2'
  refine ⟨S, S', h1, h1', ?_⟩
  rw [Subspace.equal, hG.equal_iff, h2, h2']
  simp only [true_and, InPoly, h7, h7', Solves]
  exact forall_congr' fun x => and_congr_right_iff

/-- **C84** A subspace given by generators and a subspace given by equations compare equal if and only if they have the same
points and some generator is not zero. -/
theorem C84_equal_mixed {G : PPLGen} (hG : G.Lawful) (gens eqs : List (List ℚ)) (y : List ℚ) (h : eqs.length = y.length) {n : ℕ}
    (hg : ∀ g ∈ gens, g.length = n) (hn : ∀ e ∈ eqs, e.length = n) (hne : eqs ≠ []) (hn0 : 0 < n) :
    ∃ S S', Subspace.ofGenerators G gens = .ok S ∧ Subspace.ofEquations eqs y = .ok S' ∧
      (S.equal G S' = true ↔ (∃ g ∈ gens, ∃ v ∈ g, v ≠ 0) ∧
        ∀ x : List ℚ, x.length = n → (IsCombination n gens x ↔ ∀ p ∈ eqs.zip y, dot p.1 x = p.2)) := by
  obtain ⟨S, g1, g2, g3, g4, g5⟩ := ofGenerators_spec hG gens hg
  obtain ⟨S', h1, h2, h3, h4, h5, h6, h7⟩ := ofEquations_spec eqs y h
  have hdim : S'.dim = n := by
    rw [h2]
    apply foldl_max_const
    · intro x hx
      obtain ⟨e, he, rfl⟩ := List.mem_map.mp hx
      exact hn e he
    · simpa using hne
    · omega
  refine ⟨S, S', g1, h1, ?_⟩
  rw [Subspace.equal, hG.equal_iff]
  by_cases hz : ∃ g ∈ gens, ∃ v ∈ g, v ≠ 0
  · rw [if_pos hz] at g3
    simp only [g5]
    simp only [hdim, g3, true_and, InPoly, h7, Solves, hz]
    constructor
    · intro k x hx
      rw [k x]
      simp [hx]
    · intro k x
      constructor
      · intro hs
        exact ⟨hs.1, (k x hs.1).mp hs⟩
      · rintro ⟨hx, hs⟩
        exact (k x hx).mpr hs
  · rw [if_neg hz] at g3
    simp only [hz, false_and, iff_false]
    intro k
    have := k.1
    omega

/-- **C84** The origin of the plane, given by the generator `(0, 0)`, and the origin of the plane, given by the equations
`x = 0` and `y = 0`, have the same points but do not compare equal. -/
theorem C84_origin {G : PPLGen} (hG : G.Lawful) :
    ∃ S S', Subspace.ofGenerators G [[0, 0]] = .ok S ∧ Subspace.ofEquations [[1, 0], [0, 1]] [0, 0] = .ok S' ∧
      (∀ x : List ℚ, x.length = 2 → (IsCombination 2 [[0, 0]] x ↔ ∀ p ∈ [([1, 0], (0 : ℚ)), ([0, 1], 0)], dot p.1 x = p.2)) ∧
      S.equal G S' = false := by
  have hz : ¬ ∃ g ∈ [[(0 : ℚ), 0]], ∃ v ∈ g, v ≠ 0 := by simp
  obtain ⟨S, S', h1, h2, h3⟩ := C84_equal_mixed hG [[0, 0]] [[1, 0], [0, 1]] [0, 0] rfl (n := 2) (by simp) (by simp) (by simp)
    (by norm_num)
  refine ⟨S, S', h1, h2, ?_, ?_⟩
  · intro x hx
    rw [isCombination_zero hz]
    match x, hx with
    | [a, b], _ => simp [dot, List.replicate]
  · rw [← Bool.not_eq_true, h3]
    exact fun k => hz k.1

/-- **C84** `operator==` is an equivalence relation. -/
theorem C84_equivalence {G : PPLGen} (hG : G.Lawful) (S T U : Subspace) : S.equal G S = true ∧
    (S.equal G T = true → T.equal G S = true) ∧ (S.equal G T = true → T.equal G U = true → S.equal G U = true) := by
  simp only [Subspace.equal, hG.equal_iff]
  refine ⟨⟨trivial, fun _ => trivial⟩, fun h => ⟨h.1.symm, fun x => (h.2 x).symm⟩, fun h k => ⟨h.1.trans k.1, fun x => (h.2 x).trans (k.2 x)⟩⟩

/-- **C84** Without generators, or with generators that are all zero, the result compares equal to a default constructed
subspace. -/
theorem C84_default {G : PPLGen} (hG : G.Lawful) (gens : List (List ℚ)) {n : ℕ} (hn : ∀ g ∈ gens, g.length = n) :
    ∃ S, Subspace.ofGenerators G gens = .ok S ∧
      (S.equal G Subspace.default = true ↔ ∀ g ∈ gens, ∀ v ∈ g, v = 0) := by
  obtain ⟨S, h1, h2, h3⟩ := C84_points hG gens hn
  refine ⟨S, h1, ?_⟩
  rw [Subspace.equal, hG.equal_iff]
  constructor
  · rintro ⟨h, _⟩ g hg v hv
    by_contra hv0
    have hd := (h2 ⟨g, hg, v, hv, hv0⟩).1
    have := hn g hg
    rw [← hd, h] at this
    change g.length = 0 at this
    rw [List.length_eq_zero_iff] at this
    subst this
    cases hv
  · intro h
    obtain ⟨k1, k2⟩ := h3 h
    refine ⟨k1, fun x => (k2 x).trans ?_⟩
    simp [InPoly, Subspace.default]

/-- The line generated by `(1/2, -1/3)` contains no vector with non-negative entries except for zero. -/
example : ∃ S, Subspace.ofGenerators PPLGen.ideal [[1/2, -1/3]] = .ok S ∧ S.hasNonZeroNonNegativeVector PPL.ideal = .ok false := by
  obtain ⟨S, h1, _, _, b, h2, h3⟩ := C84_decides PPL.ideal_lawful PPLGen.ideal_lawful [[1/2, -1/3]] (n := 2) (by simp) (by norm_num)
  refine ⟨S, h1, ?_⟩
  rw [h2]
  congr 1
  rw [← Bool.not_eq_true, h3]
  rintro ⟨x, ⟨hx, a, ha, hs⟩, hp, v, hv, hv0⟩
  match x, a, hx, ha with
  | [p, q], [c], _, _ =>
    have e0 := hs 0 (by norm_num)
    have e1 := hs 1 (by norm_num)
    simp at e0 e1 hp hv
    have : c = 0 := by
      obtain ⟨q1, q2⟩ := hp
      linarith
    subst this
    rcases hv with rfl | rfl
    · exact hv0 (by simpa using e0)
    · exact hv0 (by simpa using e1)

/-- The line generated by `(1/2, -1/3)` and the line generated by `(-3, 2)` and `(6, -4)` compare equal. -/
example : ∃ S S', Subspace.ofGenerators PPLGen.ideal [[1/2, -1/3]] = .ok S ∧
    Subspace.ofGenerators PPLGen.ideal [[-3, 2], [6, -4]] = .ok S' ∧ S.equal PPLGen.ideal S' = true := by
  obtain ⟨S, S', h1, h2, h3⟩ := C84_equal PPLGen.ideal_lawful [[1/2, -1/3]] [[-3, 2], [6, -4]] (n := 2) (by simp) (by simp)
  refine ⟨S, S', h1, h2, h3.mpr ?_⟩
  intro x
  refine and_congr_right fun hx => ⟨?_, ?_⟩
  · rintro ⟨a, ha, hs⟩
    match a, ha with
    | [c], _ =>
      refine ⟨[-c / 6, 0], rfl, fun i hi => ?_⟩
      rw [hs i hi]
      interval_cases i <;> simp <;> ring
  · rintro ⟨a, ha, hs⟩
    match a, ha with
    | [c, d], _ =>
      refine ⟨[-6 * c + 12 * d], rfl, fun i hi => ?_⟩
      rw [hs i hi]
      interval_cases i <;> simp <;> ring

end Verif
