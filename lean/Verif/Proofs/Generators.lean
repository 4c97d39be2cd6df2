import Verif.Model.Generators
import Verif.Proofs.Subspace
import Mathlib.LinearAlgebra.Dimension.Free
import Mathlib.LinearAlgebra.Quotient.Basic
import Mathlib.RingTheory.Finiteness.Cardinality
import Mathlib.LinearAlgebra.StdBasis
import Mathlib.LinearAlgebra.FiniteDimensional.Basic
import Mathlib.Algebra.BigOperators.Fin

/-!
# Subspaces given by generators
-/

namespace Verif

/-- A list as a vector with `n` entries. -/
def vec (n : ℕ) (x : List ℚ) : Fin n → ℚ := fun i => x.getD i 0

/-- The span of generators as a submodule. -/
def spanOf (n : ℕ) (gens : List (List ℚ)) : Submodule ℚ (Fin n → ℚ) := Submodule.span ℚ {u | ∃ g ∈ gens, vec n g = u}

theorem mem_spanOf (n : ℕ) : ∀ (gens : List (List ℚ)) (u : Fin n → ℚ), u ∈ spanOf n gens ↔
    ∃ a : List ℚ, a.length = gens.length ∧ ∀ i : Fin n, u i = (List.zipWith (fun c g => c * g.getD i 0) a gens).sum
  | [], u => by
    have : {u : Fin n → ℚ | ∃ g ∈ ([] : List (List ℚ)), vec n g = u} = ∅ := by ext; simp
    rw [spanOf, this, Submodule.span_empty, Submodule.mem_bot]
    constructor
    · rintro rfl; exact ⟨[], rfl, by simp⟩
    · rintro ⟨a, _, h⟩; funext i; simpa using h i
  | g :: gs, u => by
    have : {u : Fin n → ℚ | ∃ h ∈ g :: gs, vec n h = u} = insert (vec n g) {u | ∃ g ∈ gs, vec n g = u} := by
      ext; simp [eq_comm]
    rw [spanOf, this, Submodule.mem_span_insert]
    change (∃ c, ∃ z ∈ spanOf n gs, _) ↔ _
    constructor
    · rintro ⟨c, z, hz, rfl⟩
      obtain ⟨a, h1, h2⟩ := (mem_spanOf n gs z).mp hz
      exact ⟨c :: a, by simp [h1], fun i => by simp [h2 i, vec]⟩
    · rintro ⟨a, h1, h2⟩
      match a, h1 with
      | c :: a, h1 =>
        refine ⟨c, fun i => (List.zipWith (fun c g => c * g.getD i 0) a gs).sum, (mem_spanOf n gs _).mpr ⟨a, by simpa using h1, fun _ => rfl⟩, ?_⟩
        funext i
        rw [h2 i]
        simp [vec]

theorem isCombination_iff (n : ℕ) (gens : List (List ℚ)) (x : List ℚ) :
    IsCombination n gens x ↔ x.length = n ∧ vec n x ∈ spanOf n gens := by
  rw [mem_spanOf]
  unfold IsCombination
  refine and_congr_right fun _ => exists_congr fun a => and_congr_right fun _ => ?_
  exact ⟨fun h i => h i i.2, fun h i hi => h ⟨i, hi⟩⟩

/-- A list is determined by its vector. -/
theorem vec_inj {n : ℕ} {x y : List ℚ} (hx : x.length = n) (hy : y.length = n) (h : vec n x = vec n y) : x = y := by
  apply ext_getD (hx.trans hy.symm)
  intro i
  by_cases hi : i < n
  · exact congrFun h ⟨i, hi⟩
  · rw [List.getD_eq_default _ _ (by omega), List.getD_eq_default _ _ (by omega)]

theorem vec_smul (n : ℕ) (k : ℚ) (x : List ℚ) : vec n (smul k x) = k • vec n x := by
  funext i
  simp only [vec, getD_smul, Pi.smul_apply, smul_eq_mul]

theorem dot_vec : ∀ (n : ℕ) (a x : List ℚ), a.length = n → x.length = n → dot a x = ∑ i, vec n a i * vec n x i
  | 0, a, x, ha, hx => by
    rw [List.length_eq_zero_iff] at ha hx
    subst ha; simp
  | n + 1, a :: as, x :: xs, ha, hx => by
    rw [dot_cons, Fin.sum_univ_succ, dot_vec n as xs (by simpa using ha) (by simpa using hx)]
    rfl
  | n + 1, [], x, ha, hx => by simp at ha
  | n + 1, a :: as, [], ha, hx => by simp at hx

/-- Every subspace is the set of solutions of finitely many homogeneous equations with integer coefficients. -/
theorem exists_equations (n : ℕ) (W : Submodule ℚ (Fin n → ℚ)) : ∃ cs : List Constr,
    (∀ c ∈ cs, c.rel = .eq ∧ c.rhs = 0 ∧ c.coeffs.length = n) ∧
      ∀ x, InPoly n cs x ↔ x.length = n ∧ vec n x ∈ W := by
  classical
  let b := Module.finBasis ℚ ((Fin n → ℚ) ⧸ W)
  let f : (Fin n → ℚ) →ₗ[ℚ] (Fin _ → ℚ) := b.equivFun.toLinearMap ∘ₗ W.mkQ
  have hf : ∀ u, u ∈ W ↔ ∀ k, f u k = 0 := by
    intro u
    have : f u = 0 ↔ u ∈ W := by
      simp only [f, LinearMap.comp_apply, LinearEquiv.coe_coe, LinearEquiv.map_eq_zero_iff, Submodule.mkQ_apply,
        Submodule.Quotient.mk_eq_zero]
    rw [← this]
    exact ⟨fun h k => by rw [h]; rfl, fun h => funext h⟩
  have hrow : ∀ k, ∃ c : Constr, (c.rel = .eq ∧ c.rhs = 0 ∧ c.coeffs.length = n) ∧
      ∀ x : List ℚ, x.length = n → (c.Sat x ↔ f (vec n x) k = 0) := by
    intro k
    let r : List ℚ := List.ofFn (fun i => f (Pi.single i 1) k)
    obtain ⟨nums, z, _, d, hd, h1, h2⟩ := linearExpressionFromVector_spec r 0
    have hlen : nums.length = n := by
      have := congrArg List.length h1
      simpa [smul, r] using this
    refine ⟨⟨nums, .eq, 0⟩, ⟨rfl, rfl, hlen⟩, ?_⟩
    intro x hx
    rw [linearExpression_sat (rhs := 0) hd h1 (by simp) x, dot_vec n r x (by simp [r]) hx]
    have : f (vec n x) k = ∑ i, vec n r i * vec n x i := by
      conv_lhs => rw [← Finset.univ_sum_single (vec n x)]
      rw [map_sum, Finset.sum_apply]
      refine Finset.sum_congr rfl fun i _ => ?_
      have e : (Pi.single i (vec n x i) : Fin n → ℚ) = vec n x i • Pi.single i 1 := by
        rw [← Pi.single_smul, smul_eq_mul, mul_one]
      rw [e, map_smul, Pi.smul_apply, smul_eq_mul, mul_comm]
      congr 1
      simp [vec, r]
    rw [this]
  choose g hg1 hg2 using hrow
  refine ⟨List.ofFn g, ?_, ?_⟩
  · intro c hc
    obtain ⟨k, rfl⟩ := (List.mem_ofFn' g c).mp hc
    exact hg1 k
  · intro x
    unfold InPoly
    refine and_congr_right fun hx => ?_
    rw [hf]
    constructor
    · intro h k
      exact (hg2 k x hx).mp (h _ ((List.mem_ofFn' g _).mpr ⟨k, rfl⟩))
    · intro h c hc
      obtain ⟨k, rfl⟩ := (List.mem_ofFn' g c).mp hc
      exact (hg2 k x hx).mpr (h k)

open Classical in
/-- A PPL that does what it should, to see that `PPLGen.Lawful` is satisfiable. -/
noncomputable def PPLGen.ideal : PPLGen where
  constraints n lines := (exists_equations n (spanOf n (lines.map (List.map (fun (z : ℤ) => (z : ℚ)))))).choose
  equal n cs m ds := decide (n = m ∧ ∀ x, InPoly n cs x ↔ InPoly m ds x)

theorem PPLGen.ideal_lawful : PPLGen.ideal.Lawful where
  constraints_spec n lines _ := by
    have := (exists_equations n (spanOf n (lines.map (List.map (fun (z : ℤ) => (z : ℚ)))))).choose_spec
    refine ⟨this.1, fun x => ?_⟩
    rw [isCombination_iff]
    exact this.2 x
  equal_iff n cs m ds := by simp [PPLGen.ideal]

/-- The generators as linear expressions. -/
theorem linears_spec : ∀ gens : List (List ℚ), ∃ linears : List (List ℤ), gens.mapM (fun g => do
      let (linear, _) ← linearExpressionFromVector g 0
      return linear) = (.ok linears : M _) ∧
      List.Forall₂ (fun l g => ∃ d : ℕ, 0 < d ∧ l.map (fun (z : ℤ) => (z : ℚ)) = smul d g) linears gens
  | [] => ⟨[], rfl, .nil⟩
  | g :: gs => by
    obtain ⟨ls, h1, h2⟩ := linears_spec gs
    obtain ⟨nums, r, g1, d, hd, g2, _⟩ := linearExpressionFromVector_spec g 0
    refine ⟨nums :: ls, ?_, .cons ⟨d, hd, g2⟩ h2⟩
    rw [List.mapM_cons, h1, g1]
    rfl

theorem allZero_iff {l : List ℤ} {g : List ℚ} {d : ℕ} (hd : 0 < d) (h : l.map (fun (z : ℤ) => (z : ℚ)) = smul d g) :
    l.all (fun z => z = 0) = true ↔ ∀ v ∈ g, v = 0 := by
  have hd' : (d : ℚ) ≠ 0 := by exact_mod_cast hd.ne'
  have h1 : (∀ z ∈ l, z = 0) ↔ ∀ q ∈ l.map (fun (z : ℤ) => (z : ℚ)), q = 0 := by simp
  simp only [List.all_eq_true, decide_eq_true_eq]
  rw [h1, h]
  simp [smul, hd.ne']

theorem vec_zero {n : ℕ} {g : List ℚ} (h : ∀ v ∈ g, v = 0) : vec n g = 0 := by
  funext i
  simp only [vec, Pi.zero_apply]
  by_cases hi : (i : ℕ) < g.length
  · rw [List.getD_eq_getElem _ _ hi]; exact h _ (List.getElem_mem hi)
  · exact List.getD_eq_default _ _ (by omega)

theorem forall₂_left {α β : Type*} {R : α → β → Prop} {as : List α} {bs : List β} (h : List.Forall₂ R as bs) :
    ∀ a ∈ as, ∃ b ∈ bs, R a b := by
  induction h with
  | nil => simp
  | cons h _ ih =>
    intro a ha
    rcases List.mem_cons.mp ha with rfl | ha
    · exact ⟨_, by simp, h⟩
    · obtain ⟨b, hb, hr⟩ := ih a ha; exact ⟨b, by simp [hb], hr⟩

theorem forall₂_right {α β : Type*} {R : α → β → Prop} {as : List α} {bs : List β} (h : List.Forall₂ R as bs) :
    ∀ b ∈ bs, ∃ a ∈ as, R a b := by
  induction h with
  | nil => simp
  | cons h _ ih =>
    intro a ha
    rcases List.mem_cons.mp ha with rfl | ha
    · exact ⟨_, by simp, h⟩
    · obtain ⟨b, hb, hr⟩ := ih a ha; exact ⟨b, by simp [hb], hr⟩

/-- Neither clearing denominators nor dropping zero vectors changes the span. -/
theorem spanOf_lines (n : ℕ) {linears : List (List ℤ)} {gens : List (List ℚ)}
    (h : List.Forall₂ (fun l g => ∃ d : ℕ, 0 < d ∧ l.map (fun (z : ℤ) => (z : ℚ)) = smul d g) linears gens) :
    spanOf n ((linears.filter (fun l => !l.all (fun z => z = 0))).map (List.map (fun (z : ℤ) => (z : ℚ)))) = spanOf n gens := by
  apply le_antisymm
  · unfold spanOf
    rw [Submodule.span_le]
    rintro u ⟨l', hl', rfl⟩
    obtain ⟨l, hl, rfl⟩ := List.mem_map.mp hl'
    obtain ⟨g, hg, d, hd, e⟩ := forall₂_left h l (List.mem_filter.mp hl).1
    rw [e, vec_smul]
    exact Submodule.smul_mem _ _ (Submodule.subset_span ⟨g, hg, rfl⟩)
  · conv_lhs => unfold spanOf
    rw [Submodule.span_le]
    rintro u ⟨g, hg, rfl⟩
    obtain ⟨l, hl, d, hd, e⟩ := forall₂_right h g hg
    by_cases hz : l.all (fun z => z = 0) = true
    · rw [vec_zero ((allZero_iff hd e).mp hz)]
      exact Submodule.zero_mem _
    · have hd' : (d : ℚ) ≠ 0 := by exact_mod_cast hd.ne'
      have : vec n g = (d : ℚ)⁻¹ • vec n (l.map (fun (z : ℤ) => (z : ℚ))) := by
        rw [e, vec_smul, smul_smul, inv_mul_cancel₀ hd', one_smul]
      rw [this]
      refine Submodule.smul_mem _ _ (Submodule.subset_span ⟨_, List.mem_map.mpr ⟨l, ?_, rfl⟩, rfl⟩)
      rw [List.mem_filter]
      exact ⟨hl, by simpa using hz⟩

theorem foldl_max_le : ∀ (l : List ℕ) (m : ℕ), m ≤ l.foldl max m ∧ ∀ x ∈ l, x ≤ l.foldl max m
  | [], m => ⟨le_rfl, by simp⟩
  | a :: l, m => by
    obtain ⟨h1, h2⟩ := foldl_max_le l (max m a)
    rw [List.foldl_cons]
    refine ⟨(le_max_left _ _).trans h1, fun x hx => ?_⟩
    rcases List.mem_cons.mp hx with rfl | hx
    · exact (le_max_right _ _).trans h1
    · exact h2 x hx

theorem ofGenerators_spec {G : PPLGen} (hG : G.Lawful) (gens : List (List ℚ)) {n : ℕ} (hn : ∀ g ∈ gens, g.length = n) :
    ∃ S, Subspace.ofGenerators G gens = .ok S ∧ S.homogeneous = true ∧
      (S.dim = if ∃ g ∈ gens, ∃ v ∈ g, v ≠ 0 then n else 0) ∧
      (∀ c ∈ S.constraints, c.rel = .eq ∧ c.rhs = 0 ∧ c.coeffs.length = S.dim) ∧
      ∀ x, InPoly S.dim S.constraints x ↔ IsCombination S.dim gens x := by
  obtain ⟨linears, h1, h2⟩ := linears_spec gens
  have hrel := forall₂_left h2
  have hrel' := forall₂_right h2
  have hll : ∀ l ∈ linears, l.length = n := by
    intro l hl
    obtain ⟨g, hg, d, _, e⟩ := hrel l hl
    have := congrArg List.length e
    simpa [smul, hn g hg] using this
  refine ⟨⟨((linears.filter (fun l => !l.all (fun z => z = 0))).map List.length).foldl max 0,
    G.constraints (((linears.filter (fun l => !l.all (fun z => z = 0))).map List.length).foldl max 0)
      (linears.filter (fun l => !l.all (fun z => z = 0))), true⟩, ?_, rfl, ?_, ?_, ?_⟩
  · unfold Subspace.ofGenerators
    rw [h1]
    rfl
  · split_ifs with hz
    · apply foldl_max_const
      · intro k hk
        obtain ⟨l, hl, rfl⟩ := List.mem_map.mp hk
        exact hll l (List.mem_filter.mp hl).1
      · obtain ⟨g, hg, v, hv, hv0⟩ := hz
        obtain ⟨l, hl, d, hd, e⟩ := hrel' g hg
        have : l ∈ linears.filter (fun l => !l.all (fun z => z = 0)) := by
          rw [List.mem_filter]
          refine ⟨hl, ?_⟩
          rw [Bool.not_eq_true', ← Bool.not_eq_true, allZero_iff hd e]
          exact fun h => hv0 (h v hv)
        intro h
        rw [List.map_eq_nil_iff] at h
        rw [h] at this
        cases this
      · omega
    · have : linears.filter (fun l => !l.all (fun z => z = 0)) = [] := by
        rw [List.filter_eq_nil_iff]
        intro l hl
        obtain ⟨g, hg, d, hd, e⟩ := hrel l hl
        rw [Bool.not_eq_true, Bool.not_eq_false', allZero_iff hd e]
        intro v hv
        by_contra hv0
        exact hz ⟨g, hg, v, hv, hv0⟩
      rw [this]
      rfl
  · exact (hG.constraints_spec _ _ (fun l hl => (foldl_max_le _ 0).2 _ (List.mem_map.mpr ⟨l, hl, rfl⟩))).1
  · intro x
    rw [(hG.constraints_spec _ _ (fun l hl => (foldl_max_le _ 0).2 _ (List.mem_map.mpr ⟨l, hl, rfl⟩))).2 x, isCombination_iff,
      isCombination_iff, spanOf_lines _ h2]

end Verif
