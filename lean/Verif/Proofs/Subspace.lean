import Verif.Model.Subspace
import Mathlib.Tactic.Linarith
import Mathlib.Tactic.Ring
import Mathlib.Tactic.FieldSimp
import Mathlib.Data.Rat.Lemmas
import Mathlib.Data.Rat.Cast.Order
import Mathlib.Tactic.LinearCombination
import Mathlib.Data.List.GetD
import Mathlib.Algebra.Order.Archimedean.Basic
import Mathlib.Data.Rat.Floor

/-!
# Linear algebra over lists and the decision procedures of `RationalAffineSubspace`
-/

namespace Verif

@[simp] theorem dot_nil (x : List ℚ) : dot [] x = 0 := by cases x <;> rfl
@[simp] theorem dot_nil' (x : List ℚ) : dot x [] = 0 := by cases x <;> rfl
@[simp] theorem dot_cons (a : ℚ) (as : List ℚ) (x : ℚ) (xs : List ℚ) :
    dot (a :: as) (x :: xs) = a * x + dot as xs := rfl

theorem dot_comm : ∀ a x : List ℚ, dot a x = dot x a
  | [], x => by simp
  | _ :: _, [] => by simp
  | a :: as, x :: xs => by simp [dot_comm as xs, mul_comm]

theorem dot_smul (k : ℚ) : ∀ a x : List ℚ, dot a (smul k x) = k * dot a x
  | [], x => by simp
  | _ :: _, [] => by simp [smul]
  | a :: as, x :: xs => by
    have := dot_smul k as xs
    simp only [smul] at this
    simp only [smul, List.map_cons, dot_cons, this]; ring

theorem dot_smul_left (k : ℚ) (a x : List ℚ) : dot (smul k a) x = k * dot a x := by
  rw [dot_comm, dot_smul, dot_comm]

theorem dot_vadd : ∀ a x y : List ℚ, x.length = y.length → dot a (vadd x y) = dot a x + dot a y
  | [], x, y, _ => by simp
  | _ :: _, [], [], _ => by simp [vadd]
  | a :: as, x :: xs, y :: ys, h => by
    have := dot_vadd as xs ys (by simpa using h)
    simp only [vadd] at this
    simp only [vadd, List.zipWith_cons_cons, dot_cons, this]; ring

theorem dot_nonneg : ∀ a x : List ℚ, (∀ c ∈ a, 0 ≤ c) → (∀ c ∈ x, 0 ≤ c) → 0 ≤ dot a x
  | [], x, _, _ => by simp
  | _ :: _, [], _, _ => by simp
  | a :: as, x :: xs, h, h' => by
    have := dot_nonneg as xs (fun c hc => h c (by simp [hc])) (fun c hc => h' c (by simp [hc]))
    have := mul_nonneg (h a (by simp)) (h' x (by simp))
    simp only [dot_cons]; linarith

theorem dot_replicate_zero (n : ℕ) (x : List ℚ) : dot (List.replicate n 0) x = 0 := by
  induction n generalizing x with
  | zero => simp
  | succ n ih => cases x <;> simp [List.replicate_succ, ih]

/-- The sum of the entries of a non-negative, non-zero vector is positive. -/
theorem dot_ones_pos (n : ℕ) (x : List ℚ) (h : x.length = n) (h0 : ∀ c ∈ x, 0 ≤ c) (h1 : ∃ c ∈ x, c ≠ 0) :
    0 < dot (List.replicate n 1) x := by
  induction n generalizing x with
  | zero => simp at h; subst h; simp at h1
  | succ n ih =>
    cases x with
    | nil => simp at h
    | cons x xs =>
      simp only [List.replicate_succ, dot_cons, one_mul]
      have hx := h0 x (by simp)
      have hn := dot_nonneg (List.replicate n 1) xs (by simp +contextual) (fun c hc => h0 c (by simp [hc]))
      obtain ⟨c, hc, hc0⟩ := h1
      rcases List.mem_cons.mp hc with rfl | hc
      · have : 0 < c := lt_of_le_of_ne hx (Ne.symm hc0)
        linarith
      · have := ih xs (by simpa using h) (fun c hc => h0 c (by simp [hc])) ⟨c, hc, hc0⟩
        linarith

theorem dot_ones_zero (n : ℕ) (x : List ℚ) (h : ∀ c ∈ x, c = 0) : dot (List.replicate n 1) x = 0 := by
  induction n generalizing x with
  | zero => simp
  | succ n ih =>
    cases x with
    | nil => simp
    | cons x xs =>
      simp only [List.replicate_succ, dot_cons, one_mul]
      rw [h x (by simp), ih xs (fun c hc => h c (by simp [hc]))]; simp

theorem unitConstr_dot (n i : ℕ) (x : List ℚ) :
    dot (((List.range n).map (fun k => if k = i then (1 : ℤ) else 0)).map (fun (z : ℤ) => (z : ℚ))) x =
      if i < n then x.getD i 0 else 0 := by
  have key : ∀ (n s : ℕ) (x : List ℚ),
      dot (((List.range' s n).map (fun k => if k = i then (1 : ℤ) else 0)).map (fun (z : ℤ) => (z : ℚ))) x =
        if s ≤ i ∧ i < s + n then x.getD (i - s) 0 else 0 := by
    intro n
    induction n with
    | zero => intro s x; simp
    | succ n ih =>
      intro s x
      rw [List.range'_succ]
      cases x with
      | nil => simp
      | cons x xs =>
        simp only [List.map_cons, dot_cons, ih]
        by_cases hs : s = i
        · subst hs; simp
        · by_cases h1 : s + 1 ≤ i ∧ i < s + 1 + n
          · have h2 : s ≤ i ∧ i < s + (n + 1) := by omega
            obtain ⟨m, hm⟩ : ∃ m, i - s = m + 1 := ⟨i - s - 1, by omega⟩
            have hm' : i - (s + 1) = m := by omega
            rw [if_pos h1, if_pos h2, hm, hm']; simp [hs]
          · have h2 : ¬ (s ≤ i ∧ i < s + (n + 1)) := by omega
            rw [if_neg h1, if_neg h2]; simp [hs]
  have := key n 0 x
  simpa [List.range_eq_range'] using this

theorem getD_forall (x : List ℚ) (p : ℚ → Prop) : (∀ i, i < x.length → p (x.getD i 0)) ↔ ∀ c ∈ x, p c := by
  constructor
  · intro h c hc
    obtain ⟨i, hi, rfl⟩ := List.mem_iff_getElem.mp hc
    have := h i hi
    rwa [List.getD_eq_getElem _ _ hi] at this
  · intro h i hi
    rw [List.getD_eq_getElem _ _ hi]
    exact h _ (List.getElem_mem hi)

theorem nonNegative_iff (s : Subspace) (x : List ℚ) (hx : x.length = s.dim) :
    (∀ c ∈ s.nonNegative, c.Sat x) ↔ ∀ c ∈ x, 0 ≤ c := by
  rw [← getD_forall x (fun c => 0 ≤ c)]
  simp only [Subspace.nonNegative, List.mem_map, List.mem_range, forall_exists_index, and_imp,
    forall_apply_eq_imp_iff₂, Constr.Sat, Subspace.unitConstr, unitConstr_dot, hx]
  constructor
  · intro h i hi; have := h i hi; simpa [hi] using this
  · intro h i hi; simpa [hi] using h i hi

theorem positive_iff (s : Subspace) (x : List ℚ) (hx : x.length = s.dim) :
    (∀ c ∈ s.positive, c.Sat x) ↔ ∀ c ∈ x, 0 < c := by
  rw [← getD_forall x (fun c => 0 < c)]
  simp only [Subspace.positive, List.mem_map, List.mem_range, forall_exists_index, and_imp,
    forall_apply_eq_imp_iff₂, Constr.Sat, Subspace.unitConstr, unitConstr_dot, hx]
  constructor
  · intro h i hi; have := h i hi; simpa [hi] using this
  · intro h i hi; simpa [hi] using h i hi

/-! ### Clearing denominators -/

theorem commonDen_dvd (vec : List ℚ) : ∀ (m : ℕ), m ∣ vec.foldl (fun den c => Nat.lcm den c.den) m ∧
    ∀ c ∈ vec, c.den ∣ vec.foldl (fun den c => Nat.lcm den c.den) m := by
  induction vec with
  | nil => intro m; simp
  | cons a vec ih =>
    intro m
    obtain ⟨h1, h2⟩ := ih (Nat.lcm m a.den)
    simp only [List.foldl_cons]
    refine ⟨(Nat.dvd_lcm_left _ _).trans h1, ?_⟩
    intro c hc
    rcases List.mem_cons.mp hc with rfl | hc
    · exact (Nat.dvd_lcm_right _ _).trans h1
    · exact h2 c hc

theorem commonDen_pos (vec : List ℚ) : ∀ (m : ℕ), 0 < m → 0 < vec.foldl (fun den c => Nat.lcm den c.den) m := by
  induction vec with
  | nil => intro m h; exact h
  | cons a vec ih => intro m h; exact ih _ (Nat.lcm_pos h a.pos)

theorem den_mul_num {c : ℚ} {d : ℕ} (h : c.den ∣ d) : ∃ z : ℤ, (d : ℚ) * c = z := by
  obtain ⟨k, rfl⟩ := h
  refine ⟨k * c.num, ?_⟩
  have h1 : (c.den : ℚ) ≠ 0 := by exact_mod_cast c.den_ne_zero
  have h2 : (c.den : ℚ) * c = c.num := by rw [mul_comm]; exact Rat.mul_den_eq_num c
  push_cast
  linear_combination (k : ℚ) * h2

theorem linearExpressionFromVector_spec (vec : List ℚ) (rhs : ℚ) :
    ∃ nums r, linearExpressionFromVector vec rhs = .ok (nums, r) ∧ ∃ d : ℕ, 0 < d ∧
      nums.map (fun (z : ℤ) => (z : ℚ)) = smul d vec ∧ (r : ℚ) = d * rhs := by
  have h1 := (commonDen_dvd vec rhs.den).1
  have h2 := (commonDen_dvd vec rhs.den).2
  have h3 := commonDen_pos vec rhs.den rhs.pos
  change rhs.den ∣ commonDen vec rhs at h1
  change ∀ c ∈ vec, c.den ∣ commonDen vec rhs at h2
  change 0 < commonDen vec rhs at h3
  unfold linearExpressionFromVector
  generalize commonDen vec rhs = d at h1 h2 h3 ⊢
  have key : ∀ v : List ℚ, (∀ c ∈ v, c.den ∣ d) → ∃ nums : List ℤ, v.mapM (fun c => do
      let num : ℚ := (d : ℚ) * c
      assertM (num.den = 1)
      return num.num) = (.ok nums : M _) ∧ nums.map (fun (z : ℤ) => (z : ℚ)) = smul d v := by
    intro v
    induction v with
    | nil => intro _; exact ⟨[], rfl, rfl⟩
    | cons a v ih =>
      intro hv
      obtain ⟨nums, g1, g2⟩ := ih (fun c hc => hv c (by simp [hc]))
      obtain ⟨z, hz⟩ := den_mul_num (hv a (by simp))
      refine ⟨z :: nums, ?_, ?_⟩
      · rw [List.mapM_cons, g1]
        simp only [hz, assertM, bind, Except.bind, pure, Except.pure, Rat.den_intCast, Rat.num_intCast, decide_true, if_true]
      · simp [smul, hz] at g2 ⊢; exact g2
  obtain ⟨nums, g1, g2⟩ := key vec h2
  obtain ⟨z, hz⟩ := den_mul_num h1
  refine ⟨nums, z, ?_, d, h3, g2, hz.symm⟩
  simp only [bind, Except.bind] at g1 ⊢
  rw [mul_comm] at hz
  rw [g1]
  simp only [hz, assertM, pure, Except.pure, Rat.den_intCast, Rat.num_intCast, decide_true, if_true]

/-- `x` solves the equations. -/
def Solves (equations : List (List ℚ)) (y : List ℚ) (x : List ℚ) : Prop :=
  ∀ p ∈ equations.zip y, dot p.1 x = p.2

theorem linearExpression_sat {vec : List ℚ} {rhs : ℚ} {nums : List ℤ} {r : ℤ} {d : ℕ} (hd : 0 < d)
    (h : nums.map (fun (z : ℤ) => (z : ℚ)) = smul d vec) (h' : (r : ℚ) = d * rhs) (x : List ℚ) :
    (⟨nums, .eq, r⟩ : Constr).Sat x ↔ dot vec x = rhs := by
  have hd' : (d : ℚ) ≠ 0 := by exact_mod_cast hd.ne'
  simp only [Constr.Sat, h, h', dot_smul_left]
  exact ⟨fun e => mul_left_cancel₀ hd' e, fun e => by rw [e]⟩

theorem ofEquations_spec (equations : List (List ℚ)) (y : List ℚ) (h : equations.length = y.length) :
    ∃ S, Subspace.ofEquations equations y = .ok S ∧ S.dim = (equations.map List.length).foldl max 0 ∧
      (S.homogeneous = true ↔ ∀ v ∈ y, v = 0) ∧ S.constraints.length = equations.length ∧
      (S.homogeneous = true → ∀ c ∈ S.constraints, c.rel = .eq ∧ c.rhs = 0) ∧
      (∀ n, (∀ e ∈ equations, e.length = n) → ∀ c ∈ S.constraints, c.coeffs.length = n) ∧
      ∀ x, (∀ c ∈ S.constraints, c.Sat x) ↔ Solves equations y x := by
  have key : ∀ l : List (List ℚ × ℚ), ∃ cs : List Constr, l.mapM (fun p => do
      let (linear, rhs) ← linearExpressionFromVector p.1 p.2
      return (⟨linear, .eq, rhs⟩ : Constr)) = (.ok cs : M _) ∧ cs.length = l.length ∧
      ((∀ p ∈ l, p.2 = 0) → ∀ c ∈ cs, c.rel = .eq ∧ c.rhs = 0) ∧
      (∀ n, (∀ p ∈ l, p.1.length = n) → ∀ c ∈ cs, c.coeffs.length = n) ∧
      ∀ x, (∀ c ∈ cs, c.Sat x) ↔ ∀ p ∈ l, dot p.1 x = p.2 := by
    intro l
    induction l with
    | nil => exact ⟨[], rfl, rfl, by simp, by simp, by simp⟩
    | cons p l ih =>
      obtain ⟨cs, g1, g2, g3, g4, g5⟩ := ih
      obtain ⟨nums, r, e1, d, e2, e3, e4⟩ := linearExpressionFromVector_spec p.1 p.2
      refine ⟨⟨nums, .eq, r⟩ :: cs, ?_, by simp [g2], ?_, ?_, ?_⟩
      · rw [List.mapM_cons, g1, e1]; rfl
      · intro hp c hc
        rcases List.mem_cons.mp hc with rfl | hc
        · refine ⟨rfl, ?_⟩
          rw [hp p (by simp), mul_zero] at e4
          exact_mod_cast e4
        · exact g3 (fun q hq => hp q (by simp [hq])) c hc
      · intro n hp c hc
        rcases List.mem_cons.mp hc with rfl | hc
        · have := congrArg List.length e3
          simp [smul] at this
          rw [this]; exact hp p (by simp)
        · exact g4 n (fun q hq => hp q (by simp [hq])) c hc
      · intro x
        have := linearExpression_sat e2 e3 e4 x
        simp only [List.forall_mem_cons, this, g5]
  obtain ⟨cs, g1, g2, g3, g4, g5⟩ := key (equations.zip y)
  refine ⟨⟨(equations.map List.length).foldl max 0, cs, y.all (fun v => v = 0)⟩, ?_, rfl, ?_, ?_, ?_, ?_, g5⟩
  · simp only [Subspace.ofEquations, h, if_true]
    rw [g1]; rfl
  · simp
  · simp [g2, h]
  · intro hy
    apply g3
    intro p hp
    simp at hy
    exact hy _ (List.of_mem_zip hp).2
  · intro n hn
    apply g4
    intro p hp
    exact hn _ (List.of_mem_zip hp).1

theorem foldl_max_const (n : ℕ) : ∀ (l : List ℕ) (m : ℕ), (∀ x ∈ l, x = n) → l ≠ [] → m ≤ n → l.foldl max m = n
  | [], _, _, h, _ => absurd rfl h
  | [a], m, h, _, hm => by simp [h a (by simp)]; exact hm
  | a :: b :: l, m, h, _, hm => by
    rw [List.foldl_cons]
    exact foldl_max_const n (b :: l) _ (fun x hx => h x (List.mem_cons_of_mem _ hx)) (by simp)
      (by rw [h a (by simp)]; omega)

/-! ### Decision procedures -/

theorem hasNonNegativeVector_iff {L : PPL} (hL : L.Lawful) (s : Subspace) :
    s.hasNonNegativeVector L = true ↔
      ∃ x : List ℚ, x.length = s.dim ∧ (∀ c ∈ s.constraints, c.Sat x) ∧ ∀ v ∈ x, 0 ≤ v := by
  have := hL.isEmpty_iff s.dim (s.constraints ++ s.nonNegative)
  simp only [Subspace.hasNonNegativeVector, Bool.not_eq_true', ← Bool.not_eq_true, this, not_not, InPoly,
    List.forall_mem_append]
  constructor
  · rintro ⟨x, h1, h2, h3⟩; exact ⟨x, h1, h2, (nonNegative_iff s x h1).mp h3⟩
  · rintro ⟨x, h1, h2, h3⟩; exact ⟨x, h1, h2, (nonNegative_iff s x h1).mpr h3⟩

theorem hasPositiveVector_iff {L : PPL} (hL : L.Lawful) (s : Subspace) (hs : 0 < s.dim) :
    s.hasPositiveVector L = true ↔
      ∃ x : List ℚ, x.length = s.dim ∧ (∀ c ∈ s.constraints, c.Sat x) ∧ ∀ v ∈ x, 0 < v := by
  have := hL.isEmpty_iff s.dim (s.constraints ++ s.positive)
  simp only [Subspace.hasPositiveVector, hs.ne', if_false, Bool.not_eq_true', ← Bool.not_eq_true, this, not_not, InPoly,
    List.forall_mem_append]
  constructor
  · rintro ⟨x, h1, h2, h3⟩; exact ⟨x, h1, h2, (positive_iff s x h1).mp h3⟩
  · rintro ⟨x, h1, h2, h3⟩; exact ⟨x, h1, h2, (positive_iff s x h1).mpr h3⟩

/-- The constraints are homogeneous linear equations. -/
def Subspace.Hom (s : Subspace) : Prop := ∀ c ∈ s.constraints, c.rel = .eq ∧ c.rhs = 0

/-- The subspace has a vector which is non-zero and has only non-negative coordinates. -/
def Subspace.HasNZNN (s : Subspace) : Prop :=
  ∃ x : List ℚ, x.length = s.dim ∧ (∀ c ∈ s.constraints, c.Sat x) ∧ (∀ v ∈ x, 0 ≤ v) ∧ ∃ v ∈ x, v ≠ 0

theorem Constr.sat_smul {c : Constr} (h : c.rel = .eq ∧ c.rhs = 0) {x : List ℚ} (k : ℚ) (hs : c.Sat x) :
    c.Sat (smul k x) := by
  obtain ⟨co, rel, rhs⟩ := c
  obtain ⟨rfl, rfl⟩ := h
  simp only [Constr.Sat, dot_smul] at hs ⊢
  rw [hs]; simp

theorem hasNonZeroNonNegativeVectorPolyhedron_iff {L : PPL} (hL : L.Lawful) (s : Subspace) (hs : s.homogeneous = true)
    (hh : s.Hom) : ∃ b, s.hasNonZeroNonNegativeVectorPolyhedron L = .ok b ∧ (b = true ↔ s.HasNZNN) := by
  simp only [Subspace.hasNonZeroNonNegativeVectorPolyhedron, hs, Bool.not_true, Bool.false_eq_true, if_false]
  by_cases h0 : s.dim = 0
  · refine ⟨false, by simp [h0], by simp, ?_⟩
    rintro ⟨x, h1, _, _, v, hv, _⟩
    rw [h0] at h1; simp at h1; subst h1; simp at hv
  · refine ⟨_, if_neg h0, ?_⟩
    have := hL.isBounded_iff s.dim (s.constraints ++ s.nonNegative)
    rw [Bool.not_eq_true', ← Bool.not_eq_true, this]
    simp only [InPoly, List.forall_mem_append]
    constructor
    · intro h
      push Not at h
      obtain ⟨x, ⟨h1, h2, h3⟩, v, hv, hv'⟩ := h 0
      refine ⟨x, h1, h2, (nonNegative_iff s x h1).mp h3, v, hv, ?_⟩
      rintro rfl
      exact absurd (hv' (by simp)) (by simp)
    · rintro ⟨x, h1, h2, h3, v, hv, hv'⟩ ⟨B, hB⟩
      have hv0 : 0 < v := lt_of_le_of_ne (h3 v hv) (Ne.symm hv')
      have hk : 0 ≤ |B| / v + 1 := by positivity
      have hx : ∀ c ∈ smul (|B| / v + 1) x, 0 ≤ c := by
        intro c hc
        simp only [smul, List.mem_map] at hc
        obtain ⟨w, hw, rfl⟩ := hc
        exact mul_nonneg hk (h3 w hw)
      have hlen : (smul (|B| / v + 1) x).length = s.dim := by simp [smul, h1]
      have := (hB (smul (|B| / v + 1) x) ⟨hlen, fun c hc => Constr.sat_smul (hh c hc) _ (h2 c hc),
        (nonNegative_iff s _ hlen).mpr hx⟩ ((|B| / v + 1) * v) (by simp only [smul, List.mem_map]; exact ⟨v, hv, rfl⟩)).2
      have h5 : (|B| / v + 1) * v = |B| + v := by field_simp
      rw [h5] at this
      have := le_abs_self B
      linarith

theorem exists_int_multiple (x : List ℚ) : ∃ d : ℕ, 0 < d ∧ ∀ c ∈ smul d x, ∃ z : ℤ, c = z := by
  refine ⟨commonDen x 0, commonDen_pos x _ (by simp), ?_⟩
  intro c hc
  simp only [smul, List.mem_map] at hc
  obtain ⟨w, hw, rfl⟩ := hc
  exact den_mul_num ((commonDen_dvd x _).2 w hw)

theorem hasNonZeroNonNegativeVectorMIP_iff {L : PPL} (hL : L.Lawful) (s : Subspace) (hs : s.homogeneous = true)
    (hh : s.Hom) : ∃ b, s.hasNonZeroNonNegativeVectorMIP L = .ok b ∧ (b = true ↔ s.HasNZNN) := by
  simp only [Subspace.hasNonZeroNonNegativeVectorMIP, hs, Bool.not_true, Bool.false_eq_true, if_false]
  by_cases h0 : s.dim = 0
  · refine ⟨false, by simp [h0], by simp, ?_⟩
    rintro ⟨x, h1, _, _, v, hv, _⟩
    rw [h0] at h1; simp at h1; subst h1; simp at hv
  · refine ⟨_, if_neg h0, ?_⟩
    have hones : (List.replicate s.dim (1 : ℤ)).map (fun (z : ℤ) => (z : ℚ)) = List.replicate s.dim 1 := by simp
    rw [decide_eq_true_iff, hL.mip_unbounded_iff, hones]
    simp only [InPoly, List.forall_mem_append]
    constructor
    · intro h
      obtain ⟨x, ⟨h1, h2, h3⟩, _, h5⟩ := h 0
      refine ⟨x, h1, h3, (nonNegative_iff s x h1).mp h2, ?_⟩
      by_contra hc
      push Not at hc
      rw [dot_ones_zero _ _ hc] at h5
      exact absurd h5 (lt_irrefl _)
    · rintro ⟨x, h1, h2, h3, h4⟩ B
      obtain ⟨d, hd, hz⟩ := exists_int_multiple x
      have hpos := dot_ones_pos s.dim x h1 h3 h4
      have hd' : (0 : ℚ) < d := by exact_mod_cast hd
      obtain ⟨N, hN⟩ := exists_nat_gt (B / (d * dot (List.replicate s.dim 1) x))
      have hlen : (smul N (smul d x)).length = s.dim := by simp [smul, h1]
      refine ⟨smul N (smul d x), ⟨hlen, (nonNegative_iff s _ hlen).mpr ?_, ?_⟩, ?_, ?_⟩
      · intro c hc
        simp only [smul, List.mem_map, exists_exists_and_eq_and] at hc
        obtain ⟨w, hw, rfl⟩ := hc
        have := h3 w hw
        positivity
      · intro c hc
        exact Constr.sat_smul (hh c hc) _ (Constr.sat_smul (hh c hc) _ (h2 c hc))
      · intro c hc
        obtain ⟨w, hw, rfl⟩ := List.mem_map.mp hc
        obtain ⟨z, rfl⟩ := hz w hw
        exact ⟨N * z, by push_cast; ring⟩
      · rw [dot_smul, dot_smul]
        rw [div_lt_iff₀ (by positivity)] at hN
        linarith

/-! ### The strategy PPL_QUOTIENT -/

/-- The `i`-th entries of a list of integer vectors. -/
def rowOf (rays : List (List ℤ)) (i : ℕ) : List ℚ := rays.map (fun r => ((r.getD i 0 : ℤ) : ℚ))

theorem getD_vadd {x y : List ℚ} (h : x.length = y.length) (i : ℕ) :
    (vadd x y).getD i 0 = x.getD i 0 + y.getD i 0 := by
  simp only [vadd, List.getD_eq_getElem?_getD]
  by_cases hi : i < x.length
  · have hi' : i < y.length := h ▸ hi
    simp [hi, hi', List.getElem?_zipWith]
  · have hi' : ¬ i < y.length := h ▸ hi
    simp at hi hi'
    simp [hi, hi', List.getElem?_zipWith]

theorem getD_smul (k : ℚ) (x : List ℚ) (i : ℕ) : (smul k x).getD i 0 = k * x.getD i 0 := by
  simp only [smul, List.getD_eq_getElem?_getD, List.getElem?_map]
  by_cases hi : i < x.length
  · simp [hi]
  · simp at hi; simp [hi]

theorem getD_map_cast (r : List ℤ) (i : ℕ) :
    (r.map (fun (z : ℤ) => (z : ℚ))).getD i 0 = ((r.getD i 0 : ℤ) : ℚ) := by
  simp only [List.getD_eq_getElem?_getD, List.getElem?_map]
  by_cases hi : i < r.length
  · simp [hi]
  · simp at hi; simp [hi]

theorem comb_spec (n : ℕ) : ∀ (a : List ℚ) (rays : List (List ℤ)), (∀ r ∈ rays, r.length = n) →
    ((List.zip a rays).foldr (fun p acc => vadd (smul p.1 (p.2.map (fun (z : ℤ) => (z : ℚ)))) acc)
      (List.replicate n 0)).length = n ∧ ∀ i, ((List.zip a rays).foldr (fun p acc => vadd (smul p.1 (p.2.map (fun (z : ℤ) => (z : ℚ)))) acc)
      (List.replicate n 0)).getD i 0 = dot a (rowOf rays i)
  | [], rays, _ => by simp [List.getD_eq_getElem?_getD, List.getElem?_replicate]; intro i; split <;> simp
  | a :: as, [], _ => by simp [rowOf, List.getD_eq_getElem?_getD, List.getElem?_replicate]; intro i; split <;> simp
  | a :: as, r :: rays, h => by
    obtain ⟨h1, h2⟩ := comb_spec n as rays (fun r hr => h r (by simp [hr]))
    have hr : (smul a (r.map (fun (z : ℤ) => (z : ℚ)))).length = n := by simp [smul, h r (by simp)]
    constructor
    · simp only [List.zip_cons_cons, List.foldr_cons]
      rw [vadd, List.length_zipWith, h1, hr]; simp
    · intro i
      simp only [List.zip_cons_cons, List.foldr_cons, rowOf, List.map_cons, dot_cons]
      rw [getD_vadd (by rw [h1, hr]), h2, getD_smul, getD_map_cast]; rfl

theorem ext_getD {x y : List ℚ} (h : x.length = y.length) (h' : ∀ i, x.getD i 0 = y.getD i 0) : x = y := by
  apply List.ext_getElem h
  intro i h1 h2
  have := h' i
  rwa [List.getD_eq_getElem _ _ h1, List.getD_eq_getElem _ _ h2] at this

theorem inCone_iff (n : ℕ) (rays : List (List ℤ)) (h : ∀ r ∈ rays, r.length = n) (v : List ℚ) :
    InCone n rays v ↔ v.length = n ∧ ∃ a : List ℚ, a.length = rays.length ∧ (∀ c ∈ a, 0 ≤ c) ∧
      ∀ i, v.getD i 0 = dot a (rowOf rays i) := by
  constructor
  · rintro ⟨a, h1, h2, rfl⟩
    obtain ⟨g1, g2⟩ := comb_spec n a rays h
    exact ⟨g1, a, h1, h2, g2⟩
  · rintro ⟨h0, a, h1, h2, h3⟩
    obtain ⟨g1, g2⟩ := comb_spec n a rays h
    refine ⟨a, h1, h2, ext_getD (by rw [h0, g1]) ?_⟩
    intro i; rw [h3, g2]

theorem columns_spec (equations : List Constr) : ∀ is : List ℕ,
    (Subspace.columns equations is = none ∧ ∃ i ∈ is, ∀ e ∈ equations, e.coeffs.getD i 0 = 0) ∨
    (Subspace.columns equations is = some (is.map (fun i => equations.map (fun e => e.coeffs.getD i 0))) ∧
      ∀ i ∈ is, ∃ e ∈ equations, e.coeffs.getD i 0 ≠ 0)
  | [] => by simp [Subspace.columns]
  | i :: is => by
    by_cases hi : ∀ e ∈ equations, e.coeffs.getD i 0 = 0
    · left
      refine ⟨?_, i, by simp, hi⟩
      simp only [Subspace.columns]
      rw [if_pos (by simpa using hi)]
    · have hne : ¬ (equations.map (fun e => e.coeffs.getD i 0)).all (fun z => decide (z = 0)) = true := by simpa using hi
      rcases columns_spec equations is with ⟨h1, j, hj, hj'⟩ | ⟨h1, h2⟩
      · left
        refine ⟨?_, j, by simp [hj], hj'⟩
        simp only [Subspace.columns]
        rw [if_neg hne, h1]; rfl
      · right
        refine ⟨?_, ?_⟩
        · simp only [Subspace.columns]
          rw [if_neg hne, h1]; rfl
        · intro j hj
          rcases List.mem_cons.mp hj with rfl | hj
          · push Not at hi; exact hi
          · exact h2 j hj

/-- The unit vector. -/
def unitVec (n i : ℕ) : List ℚ := (List.range n).map (fun k => if k = i then 1 else 0)

theorem dot_unitVec (n i : ℕ) (x : List ℚ) : dot (unitVec n i) x = if i < n then x.getD i 0 else 0 := by
  rw [← unitConstr_dot, unitVec, List.map_map]
  congr 2
  funext k
  by_cases h : k = i <;> simp [h]

theorem Constr.sat_iff_dot {c : Constr} (h : c.rel = .eq ∧ c.rhs = 0) (x : List ℚ) :
    c.Sat x ↔ dot (c.coeffs.map (fun (z : ℤ) => (z : ℚ))) x = 0 := by
  obtain ⟨co, rel, rhs⟩ := c
  obtain ⟨rfl, rfl⟩ := h
  simp [Constr.Sat]

theorem rowOf_columns (equations : List Constr) (n i : ℕ) (hi : i < equations.length)
    (h : (equations[i]).coeffs.length = n) :
    rowOf ((List.range n).map (fun j => equations.map (fun e => e.coeffs.getD j 0))) i =
      (equations[i]).coeffs.map (fun (z : ℤ) => (z : ℚ)) := by
  apply List.ext_getElem
  · simp [rowOf, h]
  · intro j h1 h2
    simp [rowOf] at h1
    have h3 : j < (equations[i]).coeffs.length := h ▸ h1
    simp [rowOf, List.getD_eq_getElem?_getD, hi, h3]

theorem hasNonZeroNonNegativeVectorQuotient_iff {L : PPL} (hL : L.Lawful) (s : Subspace) (hs : s.homogeneous = true)
    (hh : s.Hom) (hd : ∀ c ∈ s.constraints, c.coeffs.length = s.dim) :
    ∃ b, s.hasNonZeroNonNegativeVectorQuotient L = .ok b ∧ (b = true ↔ s.HasNZNN) := by
  simp only [Subspace.hasNonZeroNonNegativeVectorQuotient, hs, Bool.not_true, Bool.false_eq_true, if_false]
  by_cases h0 : s.dim = 0
  · refine ⟨false, by simp [h0], by simp, ?_⟩
    rintro ⟨x, h1, _, _, v, hv, _⟩
    rw [h0] at h1; simp at h1; subst h1; simp at hv
  · obtain ⟨m1, m2⟩ := hL.minimized_spec s.dim s.constraints (fun c hc => ⟨(hh c hc).1, (hh c hc).2, hd c hc⟩)
    have hNZ : s.HasNZNN ↔ ∃ x : List ℚ, x.length = s.dim ∧ (∀ c ∈ L.minimized s.dim s.constraints, c.Sat x) ∧
        (∀ v ∈ x, 0 ≤ v) ∧ ∃ v ∈ x, v ≠ 0 := by
      unfold Subspace.HasNZNN
      constructor
      · rintro ⟨x, h1, h2, h3⟩
        exact ⟨x, h1, ((m2 x).mpr ⟨h1, h2⟩).2, h3⟩
      · rintro ⟨x, h1, h2, h3⟩
        exact ⟨x, h1, ((m2 x).mp ⟨h1, h2⟩).2, h3⟩
    rw [hNZ, if_neg h0]
    generalize L.minimized s.dim s.constraints = eqs at m1 ⊢
    have a1 : eqs.all (fun e => e.rel = .eq) = true := by simp; exact fun e he => (m1 e he).1
    have a2 : eqs.all (fun e => e.rhs = 0) = true := by simp; exact fun e he => (m1 e he).2.1
    simp only [a1, a2, assertM, if_true, bind, Except.bind]
    by_cases he : eqs = []
    · subst he
      refine ⟨true, by simp, ?_⟩
      simp only [true_iff]
      refine ⟨List.replicate s.dim 1, by simp, by simp, by simp +contextual, 1, by simp [h0], by simp⟩
    · rw [if_neg he]
      rcases columns_spec eqs (List.range s.dim) with ⟨c1, i, hi, c2⟩ | ⟨c1, c2⟩
      · rw [c1]
        refine ⟨true, rfl, ?_⟩
        simp only [true_iff]
        simp only [List.mem_range] at hi
        refine ⟨unitVec s.dim i, by simp [unitVec], ?_, ?_, 1, ?_, by simp⟩
        · intro c hc
          rw [Constr.sat_iff_dot ⟨(m1 c hc).1, (m1 c hc).2.1⟩, dot_comm, dot_unitVec, if_pos hi, getD_map_cast, c2 c hc]
          rfl
        · intro v hv
          simp only [unitVec, List.mem_map] at hv
          obtain ⟨k, _, rfl⟩ := hv
          split <;> simp
        · simp only [unitVec, List.mem_map, List.mem_range]
          exact ⟨i, hi, by simp⟩
      · rw [c1]
        refine ⟨_, rfl, ?_⟩
        have hrl : ∀ r ∈ (List.range s.dim).map (fun j => eqs.map (fun e => e.coeffs.getD j 0)), r.length = eqs.length := by
          simp +contextual
        rw [hL.coneHasLine_iff _ _ hrl]
        have hrow : ∀ i (hi : i < eqs.length), rowOf ((List.range s.dim).map (fun j => eqs.map (fun e => e.coeffs.getD j 0))) i =
            (eqs[i]).coeffs.map (fun (z : ℤ) => (z : ℚ)) := fun i hi =>
          rowOf_columns eqs s.dim i hi (m1 _ (List.getElem_mem hi)).2.2
        have hlen : ((List.range s.dim).map (fun j => eqs.map (fun e => e.coeffs.getD j 0))).length = s.dim := by simp
        generalize hrays : (List.range s.dim).map (fun j => eqs.map (fun e => e.coeffs.getD j 0)) = rays at hrl hrow hlen
        simp only [inCone_iff _ _ hrl]
        constructor
        · rintro ⟨v, ⟨v1, a, v2, v3, v4⟩, ⟨w1, b, w2, w3, w4⟩, c, hc, hc0⟩
          have hab : a.length = b.length := by rw [v2, w2]
          have hzw : (vadd a b).length = s.dim := by simp [vadd, v2, w2, hlen]
          refine ⟨vadd a b, hzw, ?_, ?_, ?_⟩
          · intro e he'
            obtain ⟨i, hi, rfl⟩ := List.mem_iff_getElem.mp he'
            rw [Constr.sat_iff_dot ⟨(m1 _ he').1, (m1 _ he').2.1⟩, dot_vadd _ _ _ hab, ← hrow i hi, dot_comm, ← v4,
              dot_comm, ← w4, getD_smul]
            ring
          · intro x hx
            simp only [vadd, List.mem_iff_getElem, List.length_zipWith, List.getElem_zipWith] at hx
            obtain ⟨i, hi, rfl⟩ := hx
            exact add_nonneg (v3 _ (List.getElem_mem _)) (w3 _ (List.getElem_mem _))
          · by_contra hcon
            push Not at hcon
            have ha0 : ∀ x ∈ a, x = 0 := by
              intro x hx
              obtain ⟨i, hi, rfl⟩ := List.mem_iff_getElem.mp hx
              have hi' : i < b.length := hab ▸ hi
              have h1 := hcon (a[i] + b[i]) (by
                simp only [vadd, List.mem_iff_getElem, List.length_zipWith, List.getElem_zipWith]
                exact ⟨i, by omega, rfl⟩)
              have h2 := v3 _ (List.getElem_mem hi)
              have h3 := w3 _ (List.getElem_mem hi')
              linarith
            have ha : a = List.replicate a.length 0 := List.eq_replicate_iff.mpr ⟨rfl, ha0⟩
            obtain ⟨i, hi, rfl⟩ := List.mem_iff_getElem.mp hc
            have := v4 i
            rw [ha, dot_replicate_zero, List.getD_eq_getElem _ _ hi] at this
            exact hc0 this
        · rintro ⟨x, x1, x2, x3, c, hc, hc0⟩
          obtain ⟨j, hj, rfl⟩ := List.mem_iff_getElem.mp hc
          have hjd : j < s.dim := x1 ▸ hj
          obtain ⟨e, he', hej⟩ := c2 j (by simpa using hjd)
          have hu : (unitVec s.dim j).length = s.dim := by simp [unitVec]
          have hrl' : ∀ i, (rowOf rays i).length = s.dim := by intro i; simp [rowOf, hlen]
          -- the vector `x_j` times the `j`-th ray
          let v : List ℚ := (List.range eqs.length).map (fun i => x[j] * (rowOf rays i).getD j 0)
          have hvg : ∀ i, i < eqs.length → v.getD i 0 = x[j] * (rowOf rays i).getD j 0 := by
            intro i hi; simp [v, List.getD_eq_getElem?_getD, hi]
          have hvo : ∀ i, ¬ i < eqs.length → v.getD i 0 = 0 := by
            intro i hi; simp at hi; simp [v, List.getD_eq_getElem?_getD, hi]
          have hro : ∀ i, ¬ i < eqs.length → rowOf rays i = List.replicate s.dim 0 := by
            intro i hi
            rw [← hrl' i]
            apply List.eq_replicate_iff.mpr
            refine ⟨rfl, ?_⟩
            intro z hz
            simp only [rowOf, List.mem_map] at hz
            obtain ⟨r, hr, rfl⟩ := hz
            have := hrl r hr
            have hir : r.length ≤ i := by omega
            simp [List.getD_eq_getElem?_getD, hir]
          have hdot : ∀ i, dot (smul x[j] (unitVec s.dim j)) (rowOf rays i) = v.getD i 0 := by
            intro i
            rw [dot_smul_left, dot_unitVec, if_pos hjd]
            by_cases hi : i < eqs.length
            · rw [hvg i hi]
            · rw [hvo i hi, hro i hi]; simp [List.getD_eq_getElem?_getD, List.getElem?_replicate, hjd]
          refine ⟨v, ⟨by simp [v], smul x[j] (unitVec s.dim j), by simp [smul, hu, hlen], ?_, fun i => (hdot i).symm⟩,
            ⟨by simp [v, smul], vadd x (smul (-x[j]) (unitVec s.dim j)), by simp [vadd, smul, hu, hlen, x1], ?_, ?_⟩, ?_⟩
          · intro c hc'
            simp only [smul, unitVec, List.map_map, List.mem_map] at hc'
            obtain ⟨k, _, rfl⟩ := hc'
            have := x3 _ hc
            simp only [Function.comp]
            split <;> simp [this]
          · intro c hc'
            simp only [vadd, smul, unitVec, List.mem_iff_getElem, List.length_zipWith, List.getElem_zipWith, List.getElem_map,
              List.getElem_range] at hc'
            obtain ⟨k, hk, rfl⟩ := hc'
            by_cases hkj : k = j
            · subst hkj; simp
            · simp only [hkj, if_false, mul_zero, add_zero]; exact x3 _ (List.getElem_mem _)
          · intro i
            have hl2 : x.length = (smul (-x[j]) (unitVec s.dim j)).length := by simp [smul, hu, x1]
            rw [getD_smul, dot_comm, dot_vadd _ _ _ hl2]
            have h1 : dot (rowOf rays i) x = 0 := by
              by_cases hi : i < eqs.length
              · rw [hrow i hi]
                exact (Constr.sat_iff_dot ⟨(m1 _ (List.getElem_mem hi)).1, (m1 _ (List.getElem_mem hi)).2.1⟩ x).mp
                  (x2 _ (List.getElem_mem hi))
              · rw [hro i hi, dot_replicate_zero]
            have h2 := hdot i
            rw [dot_smul_left] at h2
            rw [h1, dot_comm, dot_smul_left]
            linarith
          · obtain ⟨i, hi, rfl⟩ := List.mem_iff_getElem.mp he'
            refine ⟨v.getD i 0, ?_, ?_⟩
            · have hiv : i < v.length := by simpa [v] using hi
              rw [List.getD_eq_getElem _ _ hiv]
              exact List.getElem_mem _
            · rw [hvg i hi, hrow i hi, getD_map_cast]
              exact mul_ne_zero hc0 (by exact_mod_cast hej)

open Classical in
/-- A PPL that does what it should, to see that `PPL.Lawful` is satisfiable. -/
noncomputable def PPL.ideal : PPL where
  isEmpty n cs := decide (¬ ∃ x, InPoly n cs x)
  isBounded n cs := decide (∃ B : ℚ, ∀ x, InPoly n cs x → ∀ c ∈ x, -B ≤ c ∧ c ≤ B)
  minimized _ cs := cs
  coneHasLine n rays := decide (∃ v, InCone n rays v ∧ InCone n rays (smul (-1) v) ∧ ∃ c ∈ v, c ≠ 0)
  mipMaximize n cs obj := if ∀ B : ℚ, ∃ x, InPoly n cs x ∧ (∀ c ∈ x, ∃ z : ℤ, c = z) ∧
      B < dot (obj.map (fun (z : ℤ) => (z : ℚ))) x then .unbounded else .optimized

theorem PPL.ideal_lawful : PPL.ideal.Lawful where
  isEmpty_iff n cs := by simp [PPL.ideal]
  isBounded_iff n cs := by simp [PPL.ideal]
  minimized_spec n cs h := ⟨h, fun x => Iff.rfl⟩
  coneHasLine_iff n rays h := by simp [PPL.ideal]
  mip_unbounded_iff n cs obj := by
    simp only [PPL.ideal]
    split <;> simp_all

end Verif
