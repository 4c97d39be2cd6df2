import Verif.Examples

/-!
# Real quadratic rings

The ring `ℤ[√D]` for a natural number `D` that is not a square stands for a real quadratic number field
(`sample::Lengths<renf_elem_class>`, e-antic itself is not modelled).
-/

namespace Verif.Examples

/-- The ring `ℤ[√D]`. -/
abbrev Quad (D : ℕ) := Zsqrtd ((D : ℕ) : ℤ)

namespace Quad

variable {D : ℕ}

/-- An integer that is at least `|x|` in both embeddings. -/
def bound (x : Quad D) : ℕ := x.re.natAbs + D * x.im.natAbs

/-- Coefficients over the basis `1, √D`. -/
def coef : Quad D →+ (Fin 2 → ℚ) where
  toFun x i := if i = 0 then x.re else x.im
  map_zero' := by funext i; simp
  map_add' x y := by funext i; simp; split <;> simp

theorem coef_injective (x : Quad D) (h : coef x = 0) : x = 0 := by
  have h0 := congrFun h 0
  have h1 := congrFun h 1
  simp [coef] at h0 h1
  ext
  · exact h0
  · exact h1

variable [hD : Zsqrtd.Nonsquare D]

/-- The smallest `n ≥ k` with `x < (n + 1) * y`, if this is at most `k + fuel`. -/
def search (x y : Quad D) : ℕ → ℕ → ℕ
  | 0, k => k
  | fuel + 1, k => if ((k + 1 : ℕ) : Quad D) * y ≤ x then search x y fuel (k + 1) else k

theorem search_spec {x y : Quad D} : ∀ fuel k : ℕ, ((k : ℕ) : Quad D) * y ≤ x → x < ((k + fuel : ℕ) + 1 : Quad D) * y →
    ((search x y fuel k : ℕ) : Quad D) * y ≤ x ∧ x < ((search x y fuel k : ℕ) + 1 : Quad D) * y
  | 0, k, h, h' => ⟨h, by simpa [search] using h'⟩
  | fuel + 1, k, h, h' => by
    unfold search
    split
    · rename_i hk
      apply search_spec fuel (k + 1) hk
      rwa [Nat.add_assoc, Nat.add_comm 1]
    · rename_i hk
      refine ⟨h, ?_⟩
      have := not_le.mp hk
      push_cast at this
      exact this

/-- Floor division in `ℤ[√D]`. -/
def floorDivision (x y : Quad D) : M ℤ := .ok (search x y (bound x * bound y) 0)

/-- The arithmetic of `ℤ[√D]`. -/
def arith : Arith (Quad D) := ⟨floorDivision, fun l => .ok (l.map (fun x => [(x.re : ℚ), (x.im : ℚ)]))⟩

theorem sqrt_nonneg : (0 : Quad D) ≤ ⟨0, 1⟩ := by
  show Zsqrtd.Nonneg ((⟨0, 1⟩ : Quad D) - 0)
  rw [sub_zero]
  trivial

theorem sqrt_le : (⟨0, 1⟩ : Quad D) ≤ (D : ℕ) := by
  have h2 : 1 ≤ D := by
    rcases Nat.eq_zero_or_pos D with h | h
    · exact absurd h (by simpa using hD.ns 0)
    · exact h
  have h2' : ((1 : ℕ) : Quad D) ≤ (D : ℕ) := by exact_mod_cast h2
  by_contra h
  have h := not_le.mp h
  have e : (⟨0, 1⟩ : Quad D) * ⟨0, 1⟩ = (D : ℕ) := by
    ext <;> simp
  have h0 : (0 : Quad D) ≤ (D : ℕ) := by positivity
  have h1 : ((D : ℕ) : Quad D) * (D : ℕ) < ⟨0, 1⟩ * ⟨0, 1⟩ := mul_lt_mul'' h h h0 h0
  rw [e] at h1
  have h3 : ((D : ℕ) : Quad D) * 1 ≤ (D : ℕ) * (D : ℕ) := mul_le_mul_of_nonneg_left (by simpa using h2') h0
  rw [mul_one] at h3
  exact absurd h1 (not_lt.mpr h3)

theorem eq_add (x : Quad D) : x = (x.re : Quad D) + (x.im : Quad D) * ⟨0, 1⟩ := by
  ext <;> simp

theorem int_le_natAbs (z : ℤ) : (z : Quad D) ≤ (z.natAbs : ℕ) := by
  have : z ≤ (z.natAbs : ℤ) := Int.le_natAbs
  calc (z : Quad D) ≤ ((z.natAbs : ℤ) : Quad D) := by exact_mod_cast this
    _ = _ := Int.cast_natCast _

theorem le_bound (x : Quad D) : x ≤ (bound x : ℕ) := by
  rw [eq_add x]
  have h1 := int_le_natAbs (D := D) x.re
  have h2 : (x.im : Quad D) * ⟨0, 1⟩ ≤ (x.im.natAbs : ℕ) * (D : ℕ) :=
    mul_le_mul (int_le_natAbs _) sqrt_le sqrt_nonneg (by positivity)
  have e : bound ((x.re : Quad D) + (x.im : Quad D) * ⟨0, 1⟩) = bound x := by rw [← eq_add]
  rw [e]
  unfold bound
  push_cast
  calc _ ≤ ((x.re.natAbs : ℕ) : Quad D) + (x.im.natAbs : ℕ) * (D : ℕ) := add_le_add h1 h2
    _ = _ := by push_cast; ring

omit hD in
theorem bound_neg (x : Quad D) : bound (-x) = bound x := by simp [bound]
omit hD in
theorem bound_star (x : Quad D) : bound (star x) = bound x := by simp [bound]

theorem one_le_mul_bound {y : Quad D} (hy : 0 < y) : 1 ≤ y * (bound y : ℕ) := by
  have h1 : ∀ z : Quad D, bound z = bound y → y * z ≤ y * (bound y : ℕ) := fun z hz =>
    mul_le_mul_of_nonneg_left (hz ▸ le_bound z) hy.le
  have hn : y * star y = (y.norm : Quad D) := (Zsqrtd.norm_eq_mul_conj y).symm
  have h0 : y.norm ≠ 0 := by
    intro h
    have hz : y * star y = 0 := by rw [hn, h]; simp
    rcases mul_eq_zero.mp hz with h' | h'
    · exact ne_of_gt hy h'
    · exact ne_of_gt hy (star_eq_zero.mp h')
  rcases lt_or_gt_of_ne h0 with h | h
  · have := h1 (-star y) (by rw [bound_neg, bound_star])
    rw [mul_neg, hn] at this
    refine le_trans ?_ this
    have : (1 : ℤ) ≤ - y.norm := by omega
    have : ((1 : ℤ) : Quad D) ≤ ((- y.norm : ℤ) : Quad D) := by exact_mod_cast this
    simpa using this
  · have := h1 (star y) (bound_star y)
    rw [hn] at this
    refine le_trans ?_ this
    have : (1 : ℤ) ≤ y.norm := by omega
    have : ((1 : ℤ) : Quad D) ≤ ((y.norm : ℤ) : Quad D) := by exact_mod_cast this
    simpa using this

theorem arith_lawful : (arith (D := D)).Lawful coef where
  fdiv_spec x y hx hy := by
    have h : x < ((0 + bound x * bound y : ℕ) + 1 : Quad D) * y := by
      have h1 := le_bound x
      have h2 : ((bound x : ℕ) : Quad D) * 1 ≤ (bound x : ℕ) * (y * (bound y : ℕ)) :=
        mul_le_mul_of_nonneg_left (one_le_mul_bound hy) (by positivity)
      push_cast
      linarith
    obtain ⟨q1, q2⟩ := search_spec _ 0 (by simpa using hx) h
    exact ⟨_, rfl, by simpa using q1, by simpa using q2⟩
  coeffs_spec l := by simp [arith, coef, List.ofFn_succ]

end Quad

instance : Zsqrtd.Nonsquare 13 := ⟨fun n h => by
  rcases Nat.lt_or_ge n 4 with h' | h'
  · interval_cases n <;> omega
  · nlinarith⟩

/-- The sample lengths over `ℤ[√13]` satisfy the contract. -/
def hQ13 := SLengths.lawful (Quad.arith_lawful (D := 13))

/-- An exchange of seven intervals for which AUTO_SIMILAR is reported with the labels in another order. -/
def orderIET : IET (Quad 13) := .fresh [0, 1, 2, 3, 4, 5, 6] [6, 3, 1, 0, 5, 4, 2]
/-- Its lengths. -/
def orderState : SLengths (Quad 13) := ⟨[], [⟨49, 3⟩, ⟨68, 10⟩, ⟨27, 7⟩, ⟨65, 7⟩, ⟨11, 11⟩, ⟨10, 10⟩, ⟨23, 3⟩]⟩

theorem order_ok : hQ13.Ok orderIET orderState := sample_ok _ _ _ _ (by decide)

end Verif.Examples
