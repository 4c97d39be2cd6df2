import Verif.Contract
import Verif.Model.Arithmetic
import Mathlib.Algebra.Order.Ring.Int
import Mathlib.Data.Rat.Cast.Order
import Mathlib.Tactic.Linarith
import Mathlib.Tactic.Ring
import Mathlib.Algebra.Order.Field.Basic

namespace Verif

/-- The coefficient of an integer over the basis `1`. -/
def intCoef : ℤ →+ (Fin 1 → ℚ) where
  toFun x _ := x
  map_zero' := by funext; simp
  map_add' x y := by funext; simp

/-- The coefficient of a rational number over the basis `1`. -/
def ratCoef : ℚ →+ (Fin 1 → ℚ) where
  toFun x _ := x
  map_zero' := rfl
  map_add' _ _ := rfl

theorem tdiv_spec {x y : ℤ} (hx : 0 ≤ x) (hy : 0 < y) : x.tdiv y * y ≤ x ∧ x < (x.tdiv y + 1) * y := by
  rw [Int.tdiv_eq_ediv_of_nonneg hx]
  constructor
  · exact Int.ediv_mul_le x (ne_of_gt hy)
  · exact Int.lt_ediv_add_one_mul_self x hy

theorem intFloorDivision_spec {x y : ℤ} (hx : 0 ≤ x) (hy : 0 < y) :
    ∃ q, intFloorDivision x y = .ok q ∧ q * y ≤ x ∧ x < (q + 1) * y :=
  ⟨_, if_neg (ne_of_gt hy), tdiv_spec hx hy⟩

theorem mpzFloorDivision_spec {x y : ℤ} (hx : 0 ≤ x) (hy : 0 < y) :
    ∃ q, mpzFloorDivision x y = .ok q ∧ q * y ≤ x ∧ x < (q + 1) * y :=
  ⟨_, if_neg (ne_of_gt hy), tdiv_spec hx hy⟩

theorem mpqFloorDivision_spec {x y : ℚ} (hx : 0 ≤ x) (hy : 0 < y) :
    ∃ q : ℤ, mpqFloorDivision x y = .ok q ∧ (q : ℚ) * y ≤ x ∧ x < ((q : ℚ) + 1) * y := by
  have hxd : (0 : ℤ) < x.den := by exact_mod_cast x.den_pos
  have hyd : (0 : ℤ) < y.den := by exact_mod_cast y.den_pos
  have hyn : 0 < y.num := Rat.num_pos.mpr hy
  have hxn : 0 ≤ x.num := Rat.num_nonneg.mpr hx
  have hpos : 0 < (x.den : ℤ) * y.num := mul_pos hxd hyn
  obtain ⟨h1, h2⟩ := tdiv_spec (mul_nonneg hxn hyd.le) hpos
  refine ⟨_, if_neg (ne_of_gt hpos), ?_⟩
  generalize (x.num * (y.den : ℤ)).tdiv ((x.den : ℤ) * y.num) = q at h1 h2 ⊢
  have h1' : (q : ℚ) * (x.den * y.num) ≤ x.num * y.den := by exact_mod_cast h1
  have h2' : (x.num : ℚ) * y.den < (q + 1) * (x.den * y.num) := by exact_mod_cast h2
  have hxd' : (0 : ℚ) < x.den := by exact_mod_cast x.den_pos
  have hyd' : (0 : ℚ) < y.den := by exact_mod_cast y.den_pos
  have ex : x * x.den = x.num := Rat.mul_den_eq_num x
  have ey : y * y.den = y.num := Rat.mul_den_eq_num y
  rw [← ex, ← ey] at h1' h2'
  have hp : (0 : ℚ) < x.den * y.den := mul_pos hxd' hyd'
  constructor
  · apply le_of_mul_le_mul_right _ hp
    calc (q : ℚ) * y * (x.den * y.den) = q * (x.den * (y * y.den)) := by ring
      _ ≤ x * x.den * y.den := h1'
      _ = x * (x.den * y.den) := by ring
  · apply lt_of_mul_lt_mul_right _ hp.le
    calc x * (x.den * y.den) = x * x.den * y.den := by ring
      _ < (q + 1) * (x.den * (y * y.den)) := h2'
      _ = ((q : ℚ) + 1) * y * (x.den * y.den) := by ring

theorem ofFn_one {α : Type} (f : Fin 1 → α) : List.ofFn f = [f 0] := by simp

theorem intArith_lawful : intArith.Lawful intCoef where
  fdiv_spec x y hx hy := by
    obtain ⟨q, h1, h2, h3⟩ := intFloorDivision_spec hx hy
    exact ⟨q, h1, by simpa using h2, by simpa using h3⟩
  coeffs_spec l := by
    apply congrArg Except.ok
    apply List.map_congr_left
    intro x _
    rw [ofFn_one]; rfl

theorem mpzArith_lawful : mpzArith.Lawful intCoef where
  fdiv_spec x y hx hy := by
    obtain ⟨q, h1, h2, h3⟩ := mpzFloorDivision_spec hx hy
    exact ⟨q, h1, by simpa using h2, by simpa using h3⟩
  coeffs_spec l := by
    apply congrArg Except.ok
    apply List.map_congr_left
    intro x _
    rw [ofFn_one]; rfl

theorem mpqArith_lawful : mpqArith.Lawful ratCoef where
  fdiv_spec _ _ hx hy := mpqFloorDivision_spec hx hy
  coeffs_spec l := by simp [mpqArith, mpqCoefficients, ratCoef]

end Verif
