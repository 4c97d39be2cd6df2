import Verif.Proofs.Subspace
import Verif.Model.Maps
import Mathlib.Tactic.FieldSimp

/-!
# C31, C32, C33: rational affine subspaces
-/

namespace Verif

/-- **C31** `hasNonNegativeVector()` and `hasPositiveVector()` decide whether a system of rational equations has a non-negative
(respectively positive) solution. -/
theorem C31_decides {L : PPL} (hL : L.Lawful) (equations : List (List ℚ)) (y : List ℚ) (h : equations.length = y.length) {n : ℕ}
    (hn : ∀ e ∈ equations, e.length = n) (hne : equations ≠ []) (hn0 : 0 < n) :
    ∃ S, Subspace.ofEquations equations y = .ok S ∧
      (S.hasNonNegativeVector L = true ↔
        ∃ x : List ℚ, x.length = n ∧ (∀ p ∈ equations.zip y, dot p.1 x = p.2) ∧ ∀ v ∈ x, 0 ≤ v) ∧
      (S.hasPositiveVector L = true ↔
        ∃ x : List ℚ, x.length = n ∧ (∀ p ∈ equations.zip y, dot p.1 x = p.2) ∧ ∀ v ∈ x, 0 < v) := by
  obtain ⟨S, h1, h2, h3, h4, h5, h6, h7⟩ := ofEquations_spec equations y h
  have hdim : S.dim = n := by
    rw [h2]
    apply foldl_max_const
    · intro x hx
      obtain ⟨e, he, rfl⟩ := List.mem_map.mp hx
      exact hn e he
    · simpa using hne
    · omega
  refine ⟨S, h1, ?_, ?_⟩
  · rw [hasNonNegativeVector_iff hL, hdim]
    simp only [h7]
    rfl
  · rw [hasPositiveVector_iff hL S (by omega), hdim]
    simp only [h7]
    rfl

/-- **C31** `hasNonZeroNonNegativeVector()` decides whether a homogeneous system of rational equations has a non-zero
non-negative solution; for systems that are not homogeneous it throws. -/
theorem C31_nonZero {L : PPL} (hL : L.Lawful) (equations : List (List ℚ)) (y : List ℚ) (h : equations.length = y.length) {n : ℕ}
    (hn : ∀ e ∈ equations, e.length = n) (hne : equations ≠ []) :
    ∃ S, Subspace.ofEquations equations y = .ok S ∧
      ((∃ v ∈ y, v ≠ 0) → S.hasNonZeroNonNegativeVector L = .error .logicError) ∧
      ((∀ v ∈ y, v = 0) → ∃ b, S.hasNonZeroNonNegativeVector L = .ok b ∧
        (b = true ↔ ∃ x : List ℚ, x.length = n ∧ (∀ e ∈ equations, dot e x = 0) ∧ (∀ v ∈ x, 0 ≤ v) ∧ ∃ v ∈ x, v ≠ 0)) := by
  obtain ⟨S, h1, h2, h3, h4, h5, h6, h7⟩ := ofEquations_spec equations y h
  have hdim : S.dim = n := by
    rw [h2]
    apply foldl_max_const
    · intro x hx
      obtain ⟨e, he, rfl⟩ := List.mem_map.mp hx
      exact hn e he
    · simpa using hne
    · omega
  refine ⟨S, h1, ?_, ?_⟩
  · rintro ⟨v, hv, hv0⟩
    have : S.homogeneous = false := by
      rw [← Bool.not_eq_true, h3]
      exact fun h => hv0 (h v hv)
    simp [Subspace.hasNonZeroNonNegativeVector, Subspace.hasNonZeroNonNegativeVectorMIP, this]
  · intro hy
    have hh := h3.mpr hy
    obtain ⟨b, g1, g2⟩ := hasNonZeroNonNegativeVectorMIP_iff hL S hh (h5 hh)
    refine ⟨b, g1, g2.trans ?_⟩
    have hsolve : ∀ x, Solves equations y x ↔ ∀ e ∈ equations, dot e x = 0 := by
      intro x
      unfold Solves
      constructor
      · intro hs e he
        obtain ⟨i, hi, rfl⟩ := List.mem_iff_getElem.mp he
        have hm : (equations[i], y[i]) ∈ equations.zip y := by
          rw [List.mem_iff_getElem]
          exact ⟨i, by simp [List.length_zip]; omega, by simp⟩
        have := hs _ hm
        rw [this]
        exact hy _ (List.getElem_mem _)
      · intro hs p hp
        rw [hs p.1 (List.of_mem_zip hp).1, hy p.2 (List.of_mem_zip hp).2]
    unfold Subspace.HasNZNN
    simp only [h7, hsolve, hdim]

/-- **C31** Systems without matching right hand side are rejected. -/
theorem C31_sizes (equations : List (List ℚ)) (y : List ℚ) (h : equations.length ≠ y.length) :
    Subspace.ofEquations equations y = .error .invalidArgument := by
  simp [Subspace.ofEquations, h]

/-- **C32** The three strategies always give the same answer. -/
theorem C32_strategies {L : PPL} (hL : L.Lawful) (equations : List (List ℚ)) (y : List ℚ) (h : equations.length = y.length)
    {n : ℕ} (hn : ∀ e ∈ equations, e.length = n) {S : Subspace} (hS : Subspace.ofEquations equations y = .ok S) :
    S.hasNonZeroNonNegativeVectorPolyhedron L = S.hasNonZeroNonNegativeVectorMIP L ∧
      S.hasNonZeroNonNegativeVectorQuotient L = S.hasNonZeroNonNegativeVectorMIP L := by
  obtain ⟨S₁, h1, h2, h3, h4, h5, h6, h7⟩ := ofEquations_spec equations y h
  rw [h1] at hS
  cases hS
  by_cases hh : S.homogeneous = true
  · obtain ⟨b1, a1, a2⟩ := hasNonZeroNonNegativeVectorPolyhedron_iff hL S hh (h5 hh)
    obtain ⟨b2, a3, a4⟩ := hasNonZeroNonNegativeVectorMIP_iff hL S hh (h5 hh)
    have hd : ∀ c ∈ S.constraints, c.coeffs.length = S.dim := by
      intro c hc
      rw [h6 n hn c hc, h2]
      symm
      apply foldl_max_const
      · intro x hx
        obtain ⟨e, he, rfl⟩ := List.mem_map.mp hx
        exact hn e he
      · rintro he
        have : equations = [] := by simpa using he
        rw [this] at h4
        simp at h4
        rw [h4] at hc
        cases hc
      · omega
    obtain ⟨b3, a5, a6⟩ := hasNonZeroNonNegativeVectorQuotient_iff hL S hh (h5 hh) hd
    rw [a1, a3, a5]
    exact ⟨congrArg _ (Bool.eq_iff_iff.mpr (a2.trans a4.symm)), congrArg _ (Bool.eq_iff_iff.mpr (a6.trans a4.symm))⟩
  · simp [Subspace.hasNonZeroNonNegativeVectorPolyhedron, Subspace.hasNonZeroNonNegativeVectorMIP,
      Subspace.hasNonZeroNonNegativeVectorQuotient, hh]

/-- The equation `x - 2/3 y = 0` has the positive solution `(2, 3)`. -/
example : ∃ S, Subspace.ofEquations [[1, -2/3]] [0] = .ok S ∧ S.hasNonZeroNonNegativeVector PPL.ideal = .ok true := by
  obtain ⟨S, h1, _, h3⟩ := C31_nonZero PPL.ideal_lawful [[1, -2/3]] [0] rfl (n := 2) (by simp) (by simp)
  obtain ⟨b, g1, g2⟩ := h3 (by simp)
  refine ⟨S, h1, ?_⟩
  rw [g1, g2.mpr ⟨[2, 3], rfl, by simp [dot], by simp, 2, by simp⟩]

/-- The equation `x + y = 1` has a positive solution. -/
example : ∃ S, Subspace.ofEquations [[1, 1]] [1] = .ok S ∧ S.hasPositiveVector PPL.ideal = true := by
  obtain ⟨S, h1, _, h3⟩ := C31_decides PPL.ideal_lawful [[1, 1]] [1] rfl (n := 2) (by simp) (by simp) (by norm_num)
  exact ⟨S, h1, h3.mpr ⟨[1/2, 1/2], rfl, by simp [dot]; norm_num, by simp⟩⟩

/-! ### C33 -/

/-- Exchanging two coordinates of a vector. -/
def exchange (i j : ℕ) (x : List ℚ) : List ℚ := (x.set i (x.getD j 0)).set j (x.getD i 0)

/-- **C33 (partial)** In dimension two, `swap(0, 1)` and `swap(1, 0)` exchange the coordinates.  Missing: the same for every dimension,
which is false, see `C33_swap_undefined`. -/
theorem C33_swap_partial (p : Poly) (hd : p.dim = 2) (hp : ∀ x, p.pts x → x.length = 2) {i j : ℕ} (hi : i < 2) (hj : j < 2)
    (hij : i ≠ j) : ∃ q, p.swap i j = .ok q ∧ q.dim = 2 ∧ ∀ y, q.pts y ↔ ∃ x, p.pts x ∧ y = exchange i j x := by
  have key : ∀ k, (k = 0 ∨ k = 1) ↔ k < 2 := by omega
  have hcond : (List.range p.dim).all (fun k => swapDimensions i j k < p.dim) ∧
      ((List.range p.dim).map (swapDimensions i j)).Nodup := by
    rw [hd]
    rcases (key i).mpr hi with rfl | rfl <;> rcases (key j).mpr hj with rfl | rfl <;>
      first
      | exact absurd rfl hij
      | decide
  refine ⟨⟨p.dim, fun y => y.length = p.dim ∧
    ∃ x, p.pts x ∧ x.length = p.dim ∧ ∀ k < p.dim, y.getD (swapDimensions i j k) 0 = x.getD k 0⟩,
    by rw [Poly.swap, Poly.mapSpaceDimensions, if_neg (by omega), if_pos hcond], hd, ?_⟩
  intro y
  simp only [hd]
  constructor
  · rintro ⟨hy, x, h1, h2, h3⟩
    refine ⟨x, h1, ?_⟩
    match x, h2, y, hy with
    | [x0, x1], _, [y0, y1], _ =>
      have e0 := h3 0 (by norm_num)
      have e1 := h3 1 (by norm_num)
      rcases (key i).mpr hi with rfl | rfl <;> rcases (key j).mpr hj with rfl | rfl <;>
        simp_all [swapDimensions, exchange]
  · rintro ⟨x, h1, rfl⟩
    have h2 := hp x h1
    refine ⟨by simp [exchange, h2], x, h1, h2, ?_⟩
    match x, h2 with
    | [x0, x1], _ =>
      intro k hk
      rcases (key k).mpr hk with rfl | rfl <;> rcases (key i).mpr hi with rfl | rfl <;>
        rcases (key j).mpr hj with rfl | rfl <;> simp_all [swapDimensions, exchange]

/-- **C33 (negation)** From dimension three on, `swap(i, j)` of different coordinates violates the requirement of the PPL that the map of
dimensions is injective: coordinates other than `i` and `j` are mapped to `i` instead of themselves. -/
theorem C33_swap_undefined (p : Poly) (hd : 3 ≤ p.dim) (i j : ℕ) : p.swap i j = .error .ub := by
  rw [Poly.swap, Poly.mapSpaceDimensions, if_neg (by omega), if_neg]
  rintro ⟨-, h⟩
  have inj : ∀ a < p.dim, ∀ b < p.dim, swapDimensions i j a = swapDimensions i j b → a = b := by
    intro a ha b hb hab
    exact List.inj_on_of_nodup_map h (List.mem_range.mpr ha) (List.mem_range.mpr hb) hab
  have h0 := inj 0 (by omega) 1 (by omega)
  have h1 := inj 0 (by omega) 2 (by omega)
  have h2 := inj 1 (by omega) 2 (by omega)
  simp only [swapDimensions] at h0 h1 h2
  by_cases c0 : 0 = i
  · have := h2 (by rw [if_neg (by omega), if_neg (by omega)])
    omega
  · by_cases c1 : 1 = i
    · have := h1 (by rw [if_neg (by omega), if_neg (by omega)])
      omega
    · have := h0 (by rw [if_neg c0, if_neg c1])
      omega

theorem dot_linear2 (i j : ℕ) (a b : ℚ) (x : List ℚ) : dot (linear2 i j a b) x = a * x.getD i 0 + b * x.getD j 0 := by
  have key : linear2 i j a b = vadd (smul a (unitVec (max i j + 1) i)) (smul b (unitVec (max i j + 1) j)) := by
    simp only [linear2, vadd, smul, unitVec, List.map_map]
    apply List.ext_getElem <;> simp
  rw [key, dot_comm, dot_vadd _ _ _ (by simp [smul, unitVec]), dot_smul, dot_smul, dot_comm x, dot_comm x, dot_unitVec, dot_unitVec,
    if_pos (by omega), if_pos (by omega)]

/-- **C33** `elementaryTransformation(i, j, c)` replaces the coordinate `x_i` of every point by `x_i + c x_j`. -/
theorem C33_elementary (p : Poly) {i j : ℕ} (hi : i < p.dim) (hj : j < p.dim) (c : ℚ) :
    ∃ q, p.elementaryTransformation i j c = .ok q ∧ q.dim = p.dim ∧
      ∀ y, q.pts y ↔ ∃ x, p.pts x ∧ y = x.set i (x.getD i 0 + c * x.getD j 0) := by
  have hc : (c.den : ℤ) ≠ 0 := by exact_mod_cast c.den_ne_zero
  refine ⟨⟨p.dim, fun y => ∃ x, p.pts x ∧ y = x.set i (dot (linear2 i j c.den c.num) x / (c.den : ℤ))⟩, ?_, rfl, ?_⟩
  · rw [Poly.elementaryTransformation, Poly.affineImage, if_neg]
    rintro (h | h | h)
    · exact hc h
    · omega
    · simp [linear2] at h; omega
  · intro y
    have : ∀ x, dot (linear2 i j c.den c.num) x / ((c.den : ℤ) : ℚ) = x.getD i 0 + c * x.getD j 0 := by
      intro x
      rw [dot_linear2]
      have hq : ((c.den : ℤ) : ℚ) ≠ 0 := by exact_mod_cast hc
      have h2 : ((c.den : ℕ) : ℚ) = ((c.den : ℤ) : ℚ) := by norm_cast
      have h3 : (c.num : ℚ) = c * ((c.den : ℤ) : ℚ) := by
        rw [← h2]; exact (Rat.mul_den_eq_num c).symm
      rw [h2, h3]
      field_simp
    simp only [this]

/-- **C33** For `i ≠ j`, `elementaryTransformation(i, j, -c)` undoes `elementaryTransformation(i, j, c)`. -/
theorem C33_elementary_inverse (p : Poly) (hp : ∀ x, p.pts x → x.length = p.dim) {i j : ℕ} (hi : i < p.dim) (hj : j < p.dim)
    (hij : i ≠ j) (c : ℚ) : ∃ q r, p.elementaryTransformation i j c = .ok q ∧ q.elementaryTransformation i j (-c) = .ok r ∧
      r.dim = p.dim ∧ ∀ x, r.pts x ↔ p.pts x := by
  obtain ⟨q, h1, h2, h3⟩ := C33_elementary p hi hj c
  obtain ⟨r, g1, g2, g3⟩ := C33_elementary q (i := i) (j := j) (by omega) (by omega) (-c)
  refine ⟨q, r, h1, g1, by omega, ?_⟩
  have key : ∀ x, p.pts x → ((x.set i (x.getD i 0 + c * x.getD j 0)).set i ((x.set i (x.getD i 0 + c * x.getD j 0)).getD i 0 +
      -c * (x.set i (x.getD i 0 + c * x.getD j 0)).getD j 0)) = x := by
    intro x hx
    have hl := hp x hx
    have e1 : (x.set i (x.getD i 0 + c * x.getD j 0)).getD i 0 = x.getD i 0 + c * x.getD j 0 := by
      rw [List.getD_eq_getElem _ _ (by simp; omega)]; simp
    have e2 : (x.set i (x.getD i 0 + c * x.getD j 0)).getD j 0 = x.getD j 0 := by
      generalize x.getD i 0 + c * x.getD j 0 = v
      simp [List.getD_eq_getElem?_getD, List.getElem?_set_ne hij]
    rw [e1, e2, List.set_set]
    have : x.getD i 0 + c * x.getD j 0 + -c * x.getD j 0 = x.getD i 0 := by ring
    rw [this, List.getD_eq_getElem _ _ (by omega), List.set_getElem_self]
  intro x
  rw [g3]
  constructor
  · rintro ⟨y, hy, rfl⟩
    obtain ⟨z, hz, rfl⟩ := (h3 y).mp hy
    rw [key z hz]; exact hz
  · intro hx
    exact ⟨_, (h3 _).mpr ⟨x, hx, rfl⟩, (key x hx).symm⟩

/-- **C33 (negation)** For `i = j`, `elementaryTransformation` is not always invertible: two different lines are mapped to the
same one. -/
theorem C33_elementary_not_injective : ∃ p q r : Poly, (∃ x, p.pts x ∧ ¬ q.pts x) ∧
    p.elementaryTransformation 0 0 (-1) = .ok r ∧ q.elementaryTransformation 0 0 (-1) = .ok r := by
  obtain ⟨r, h1, h2, h3⟩ := C33_elementary ⟨1, fun x => x = [1]⟩ (i := 0) (j := 0) (by decide) (by decide) (-1)
  obtain ⟨r', h1', h2', h3'⟩ := C33_elementary ⟨1, fun x => x = [2]⟩ (i := 0) (j := 0) (by decide) (by decide) (-1)
  have : r = r' := by
    cases r; cases r'
    simp only at h2 h2' h3 h3'
    subst h2 h2'
    congr 1
    funext y
    rw [h3, h3']
    simp
  subst this
  exact ⟨_, _, r, ⟨[1], rfl, by simp⟩, h1, h1'⟩

/-- The diagonal in dimension three cannot be swapped. -/
example : (Poly.mk 3 (fun x => ∃ t, x = [t, 0, t])).swap 0 1 = .error .ub := C33_swap_undefined _ (by decide) _ _

/-- A line in the plane is reflected. -/
example : ∃ q, (Poly.mk 2 (fun x => ∃ t, x = [t, 2 * t])).swap 0 1 = .ok q ∧ q.pts [2, 1] := by
  obtain ⟨q, h1, _, h3⟩ := C33_swap_partial (Poly.mk 2 (fun x => ∃ t, x = [t, 2 * t])) rfl (by rintro x ⟨t, rfl⟩; rfl)
    (i := 0) (j := 1) (by decide) (by decide) (by decide)
  exact ⟨q, h1, (h3 _).mpr ⟨[1, 2], ⟨1, by norm_num⟩, rfl⟩⟩

end Verif
