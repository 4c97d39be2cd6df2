import Verif.Examples
import Mathlib.Data.Real.Basic
import Mathlib.Topology.Order.IntermediateValue
import Mathlib.Topology.Instances.Real.Lemmas
import Mathlib.Tactic.Linarith
import Mathlib.Tactic.LinearCombination
import Mathlib.Data.ZMod.Basic

/-!
# A cubic number field and the transformation of Arnoux and Yoccoz

The ring `ℤ[α]` with `α + α² + α³ = 1` stands for a cubic number field (`sample::Lengths<renf_elem_class>`, e-antic itself is not
modelled).  The polynomial has a single real root so an element is positive if and only if its norm is positive.

Arnoux and Yoccoz have described an exchange of seven intervals with lengths in this ring.  Its SAF invariant vanishes, still it has
no periodic points, since it is similar to a first return map of itself.
-/

namespace Verif.Examples

/-- The element `a + b α + c α²` of `ℤ[α]`. -/
@[ext] structure Cubic where
  a : ℤ
  b : ℤ
  c : ℤ
deriving DecidableEq

namespace Cubic

instance : Zero Cubic := ⟨⟨0, 0, 0⟩⟩
instance : One Cubic := ⟨⟨1, 0, 0⟩⟩
instance : Add Cubic := ⟨fun x y => ⟨x.a + y.a, x.b + y.b, x.c + y.c⟩⟩
instance : Neg Cubic := ⟨fun x => ⟨-x.a, -x.b, -x.c⟩⟩
instance : Sub Cubic := ⟨fun x y => ⟨x.a - y.a, x.b - y.b, x.c - y.c⟩⟩
/-- `α³ = 1 - α - α²`, `α⁴ = 2 α - 1` -/
instance : Mul Cubic := ⟨fun x y => ⟨x.a * y.a + (x.b * y.c + x.c * y.b) - x.c * y.c,
  x.a * y.b + x.b * y.a - (x.b * y.c + x.c * y.b) + 2 * (x.c * y.c), x.a * y.c + x.b * y.b + x.c * y.a - (x.b * y.c + x.c * y.b)⟩⟩
instance : NatCast Cubic := ⟨fun n => ⟨n, 0, 0⟩⟩
instance : IntCast Cubic := ⟨fun n => ⟨n, 0, 0⟩⟩

@[simp] theorem zero_a : (0 : Cubic).a = 0 := rfl
@[simp] theorem zero_b : (0 : Cubic).b = 0 := rfl
@[simp] theorem zero_c : (0 : Cubic).c = 0 := rfl
@[simp] theorem one_a : (1 : Cubic).a = 1 := rfl
@[simp] theorem one_b : (1 : Cubic).b = 0 := rfl
@[simp] theorem one_c : (1 : Cubic).c = 0 := rfl
@[simp] theorem add_a (x y : Cubic) : (x + y).a = x.a + y.a := rfl
@[simp] theorem add_b (x y : Cubic) : (x + y).b = x.b + y.b := rfl
@[simp] theorem add_c (x y : Cubic) : (x + y).c = x.c + y.c := rfl
@[simp] theorem neg_a (x : Cubic) : (-x).a = -x.a := rfl
@[simp] theorem neg_b (x : Cubic) : (-x).b = -x.b := rfl
@[simp] theorem neg_c (x : Cubic) : (-x).c = -x.c := rfl
@[simp] theorem sub_a (x y : Cubic) : (x - y).a = x.a - y.a := rfl
@[simp] theorem sub_b (x y : Cubic) : (x - y).b = x.b - y.b := rfl
@[simp] theorem sub_c (x y : Cubic) : (x - y).c = x.c - y.c := rfl
@[simp] theorem mul_a (x y : Cubic) : (x * y).a = x.a * y.a + (x.b * y.c + x.c * y.b) - x.c * y.c := rfl
@[simp] theorem mul_b (x y : Cubic) : (x * y).b = x.a * y.b + x.b * y.a - (x.b * y.c + x.c * y.b) + 2 * (x.c * y.c) := rfl
@[simp] theorem mul_c (x y : Cubic) : (x * y).c = x.a * y.c + x.b * y.b + x.c * y.a - (x.b * y.c + x.c * y.b) := rfl
@[simp] theorem natCast_a (n : ℕ) : (n : Cubic).a = n := rfl
@[simp] theorem natCast_b (n : ℕ) : (n : Cubic).b = 0 := rfl
@[simp] theorem natCast_c (n : ℕ) : (n : Cubic).c = 0 := rfl

instance : CommRing Cubic where
  add_assoc _ _ _ := by ext <;> simp <;> ring
  zero_add _ := by ext <;> simp
  add_zero _ := by ext <;> simp
  add_comm _ _ := by ext <;> simp <;> ring
  left_distrib _ _ _ := by ext <;> simp <;> ring
  right_distrib _ _ _ := by ext <;> simp <;> ring
  zero_mul _ := by ext <;> simp
  mul_zero _ := by ext <;> simp
  mul_assoc _ _ _ := by ext <;> simp <;> ring
  one_mul _ := by ext <;> simp
  mul_one _ := by ext <;> simp
  mul_comm _ _ := by ext <;> simp <;> ring
  neg_add_cancel _ := by ext <;> simp
  sub_eq_add_neg _ _ := by ext <;> simp <;> ring
  nsmul := nsmulRec
  zsmul := zsmulRec
  natCast_zero := rfl
  natCast_succ n := by ext <;> simp
  intCast_ofNat n := rfl
  intCast_negSucc n := by
    show (⟨Int.negSucc n, 0, 0⟩ : Cubic) = -(⟨((n + 1 : ℕ) : ℤ), 0, 0⟩ : Cubic)
    ext
    · show Int.negSucc n = -((n + 1 : ℕ) : ℤ); omega
    · rfl
    · rfl

/-- The norm: the determinant of the multiplication with the element. -/
def norm (x : Cubic) : ℤ :=
  x.a * ((x.a - x.c) * (x.a - x.b) - (x.b - x.c) * (2 * x.c - x.b)) -
  x.b * (x.c * (x.a - x.b) - (x.b - x.c) * (x.b - x.c)) +
  x.c * (x.c * (2 * x.c - x.b) - (x.a - x.c) * (x.b - x.c))

theorem norm_zmod : ∀ a b c : ZMod 3, a * ((a - c) * (a - b) - (b - c) * (2 * c - b)) - b * (c * (a - b) - (b - c) * (b - c)) +
    c * (c * (2 * c - b) - (a - c) * (b - c)) = 0 → a = 0 ∧ b = 0 ∧ c = 0 := by decide

/-- The norm form does not represent zero. -/
theorem norm_eq_zero : ∀ (n : ℕ) (x : Cubic), x.a.natAbs + x.b.natAbs + x.c.natAbs ≤ n → x.norm = 0 → x = 0 := by
  intro n
  induction n with
  | zero =>
    intro x hx _
    ext
    · show x.a = 0; omega
    · show x.b = 0; omega
    · show x.c = 0; omega
  | succ n ih =>
    intro x hx h
    have h3 := congrArg (fun z : ℤ => (z : ZMod 3)) h
    simp only [norm] at h3
    push_cast at h3
    obtain ⟨ha, hb, hc⟩ := norm_zmod _ _ _ h3
    rw [ZMod.intCast_zmod_eq_zero_iff_dvd] at ha hb hc
    obtain ⟨a, ha⟩ := ha
    obtain ⟨b, hb⟩ := hb
    obtain ⟨c, hc⟩ := hc
    push_cast at ha hb hc
    have h' : (⟨a, b, c⟩ : Cubic).norm = 0 := by
      unfold norm at h ⊢
      rw [ha, hb, hc] at h
      simp only
      linarith
    by_cases hz : a.natAbs + b.natAbs + c.natAbs = 0
    · ext
      · show x.a = 0; omega
      · show x.b = 0; omega
      · show x.c = 0; omega
    · have := ih ⟨a, b, c⟩ (by simp only; omega) h'
      rw [Cubic.ext_iff] at this
      simp only [zero_a, zero_b, zero_c] at this
      omega

theorem norm_eq_zero_iff (x : Cubic) : x.norm = 0 ↔ x = 0 :=
  ⟨norm_eq_zero _ x (le_refl _), fun h => by subst h; rfl⟩

/-- There is a root of the polynomial between a half and two thirds. -/
theorem exists_root : ∃ α : ℝ, α + α ^ 2 + α ^ 3 = 1 ∧ 1 / 2 < α ∧ α < 3 / 5 := by
  have hc : ContinuousOn (fun x : ℝ => x + x ^ 2 + x ^ 3) (Set.Icc (1 / 2) (3 / 5)) := by fun_prop
  obtain ⟨x, ⟨h1, h2⟩, h3⟩ := intermediate_value_Icc (by norm_num : (1 / 2 : ℝ) ≤ 3 / 5) hc
    (show (1 : ℝ) ∈ Set.Icc _ _ by constructor <;> norm_num)
  refine ⟨x, h3, lt_of_le_of_ne h1 ?_, lt_of_le_of_ne h2 ?_⟩
  · rintro rfl; norm_num at h3
  · rintro rfl; norm_num at h3

/-- The real root. -/
noncomputable def root : ℝ := exists_root.choose
theorem root_eq : root + root ^ 2 + root ^ 3 = 1 := exists_root.choose_spec.1
theorem lt_root : 1 / 2 < root := exists_root.choose_spec.2.1
theorem root_lt : root < 3 / 5 := exists_root.choose_spec.2.2

/-- The embedding into the real numbers. -/
noncomputable def toReal : Cubic →+* ℝ where
  toFun x := x.a + x.b * root + x.c * root ^ 2
  map_zero' := by simp
  map_one' := by simp
  map_add' x y := by simp only [add_a, add_b, add_c]; push_cast; ring
  map_mul' x y := by
    simp only [mul_a, mul_b, mul_c]
    push_cast
    linear_combination (-((x.b : ℝ) * y.c + x.c * y.b) - x.c * y.c * root + x.c * y.c) * root_eq

theorem toReal_apply (x : Cubic) : toReal x = x.a + x.b * root + x.c * root ^ 2 := rfl

/-- The product of the two other conjugates. -/
noncomputable def conj (x : Cubic) : ℝ :=
  (x.a + x.b * (-(1 + root) / 2) + x.c * ((1 + root) ^ 2 / 2 - (1 + root + root ^ 2))) ^ 2 +
  ((1 + root + root ^ 2) - (1 + root) ^ 2 / 4) * (x.b - x.c * (1 + root)) ^ 2

theorem norm_eq (x : Cubic) : (x.norm : ℝ) = toReal x * conj x := by
  rw [toReal_apply, norm, conj]
  push_cast
  linear_combination (-(x.c : ℝ) ^ 3 * root ^ 3 - (x.c : ℝ) ^ 3 * root ^ 2 - (x.c : ℝ) ^ 3 * root + 3 * x.a * x.b * x.c -
    2 * x.a * (x.c : ℝ) ^ 2 + (x.b : ℝ) ^ 2 * x.c - (x.b : ℝ) ^ 3 - x.b * (x.c : ℝ) ^ 2 - (x.c : ℝ) ^ 3) * root_eq

theorem conj_nonneg (x : Cubic) : 0 ≤ conj x := by
  have h1 := lt_root
  have h2 := root_lt
  unfold conj
  have : 0 ≤ (1 + root + root ^ 2) - (1 + root) ^ 2 / 4 := by nlinarith
  positivity

theorem conj_pos {x : Cubic} (hx : x ≠ 0) : 0 < conj x := by
  refine lt_of_le_of_ne (conj_nonneg x) ?_
  intro h
  have := norm_eq x
  rw [← h, mul_zero] at this
  exact hx ((norm_eq_zero_iff x).mp (by exact_mod_cast this))

theorem toReal_pos_iff (x : Cubic) : 0 < toReal x ↔ 0 < x.norm := by
  by_cases hx : x = 0
  · subst hx; simp [norm]
  · have h := conj_pos hx
    rw [← Int.cast_pos (R := ℝ), norm_eq, mul_pos_iff_of_pos_right h]

theorem norm_neg (x : Cubic) : (-x).norm = -x.norm := by
  simp only [norm, neg_a, neg_b, neg_c]; ring

theorem toReal_eq_zero_iff (x : Cubic) : toReal x = 0 ↔ x = 0 := by
  constructor
  · intro h
    have := norm_eq x
    rw [h, zero_mul] at this
    exact (norm_eq_zero_iff x).mp (by exact_mod_cast this)
  · rintro rfl; exact map_zero _

theorem toReal_nonneg_iff (x : Cubic) : 0 ≤ toReal x ↔ 0 ≤ x.norm := by
  rw [← not_lt, ← not_lt, ← neg_pos, ← map_neg, toReal_pos_iff, norm_neg, neg_pos]

theorem toReal_injective : Function.Injective toReal := by
  intro x y h
  have : toReal (x - y) = 0 := by rw [map_sub, h, sub_self]
  exact sub_eq_zero.mp ((toReal_eq_zero_iff _).mp this)

instance : LE Cubic := ⟨fun x y => 0 ≤ (y - x).norm⟩
instance : LT Cubic := ⟨fun x y => 0 < (y - x).norm⟩
instance : DecidableLE Cubic := fun x y => inferInstanceAs (Decidable (0 ≤ (y - x).norm))
instance : DecidableLT Cubic := fun x y => inferInstanceAs (Decidable (0 < (y - x).norm))

theorem le_iff (x y : Cubic) : x ≤ y ↔ toReal x ≤ toReal y := by
  rw [← sub_nonneg (a := toReal y), ← map_sub, toReal_nonneg_iff]; rfl

theorem lt_iff (x y : Cubic) : x < y ↔ toReal x < toReal y := by
  rw [← sub_pos (a := toReal y), ← map_sub, toReal_pos_iff]; rfl

instance : LinearOrder Cubic where
  le_refl x := by rw [le_iff]
  le_trans x y z h1 h2 := by rw [le_iff] at *; exact h1.trans h2
  lt_iff_le_not_ge x y := by rw [le_iff, le_iff, lt_iff]; exact lt_iff_le_not_ge
  le_antisymm x y h1 h2 := by rw [le_iff] at *; exact toReal_injective (le_antisymm h1 h2)
  le_total x y := by rw [le_iff, le_iff]; exact le_total _ _
  toDecidableLE := inferInstance
  toDecidableEq := inferInstance
  toDecidableLT := inferInstance

theorem toReal_strictMono : StrictMono toReal := fun x y h => (lt_iff x y).mp h

instance : IsStrictOrderedRing Cubic :=
  Function.Injective.isStrictOrderedRing toReal (map_zero _) (map_one _) (map_add _) (map_mul _) (fun {x y} => (le_iff x y).symm) (fun {x y} => (lt_iff x y).symm)

/-- A bound on the coefficients. -/
def bound (x : Cubic) : ℕ := x.a.natAbs + x.b.natAbs + x.c.natAbs

theorem toReal_le_bound (x : Cubic) : toReal x ≤ bound x := by
  have h1 := lt_root
  have h2 := root_lt
  rw [toReal_apply, bound]
  push_cast
  simp only [Nat.cast_natAbs, Int.cast_abs]
  have ha := le_abs_self (x.a : ℝ)
  have hb := le_abs_self (x.b : ℝ)
  have hc := le_abs_self (x.c : ℝ)
  have hb0 := abs_nonneg (x.b : ℝ)
  have hc0 := abs_nonneg (x.c : ℝ)
  have e1 : (x.b : ℝ) * root ≤ |(x.b : ℝ)| := by nlinarith
  have e2 : (x.c : ℝ) * root ^ 2 ≤ |(x.c : ℝ)| := by
    have : root ^ 2 ≤ 1 := by nlinarith
    nlinarith [sq_nonneg root]
  linarith

theorem conj_le (x : Cubic) : conj x ≤ 7 * (bound x : ℝ) ^ 2 := by
  have h1 := lt_root
  have h2 := root_lt
  have hs : root ^ 2 < 9 / 25 := by nlinarith
  have hs' : 1 / 4 < root ^ 2 := by nlinarith
  set B : ℝ := (bound x : ℝ) with hB
  have hB' : B = |(x.a : ℝ)| + |(x.b : ℝ)| + |(x.c : ℝ)| := by
    rw [hB, bound]; push_cast; simp only [Nat.cast_natAbs, Int.cast_abs]
  have ha0 := abs_nonneg (x.a : ℝ)
  have hb0 := abs_nonneg (x.b : ℝ)
  have hc0 := abs_nonneg (x.c : ℝ)
  have hB0 : 0 ≤ B := by rw [hB']; positivity
  have k1 : |(x.a : ℝ) + x.b * (-(1 + root) / 2) + x.c * ((1 + root) ^ 2 / 2 - (1 + root + root ^ 2))| ≤ B := by
    have t1 : |(x.b : ℝ) * (-(1 + root) / 2)| ≤ |(x.b : ℝ)| := by
      rw [abs_mul]
      have : |-(1 + root) / 2| ≤ 1 := by rw [abs_le]; constructor <;> linarith
      nlinarith
    have t2 : |(x.c : ℝ) * ((1 + root) ^ 2 / 2 - (1 + root + root ^ 2))| ≤ |(x.c : ℝ)| := by
      rw [abs_mul]
      have : |(1 + root) ^ 2 / 2 - (1 + root + root ^ 2)| ≤ 1 := by rw [abs_le]; constructor <;> nlinarith
      nlinarith
    rw [hB']
    refine (abs_add_le _ _).trans ?_
    have := abs_add_le (x.a : ℝ) (x.b * (-(1 + root) / 2))
    linarith
  have k2 : |(x.b : ℝ) - x.c * (1 + root)| ≤ 8 / 5 * B := by
    have t2 : |(x.c : ℝ) * (1 + root)| ≤ 8 / 5 * |(x.c : ℝ)| := by
      rw [abs_mul]
      have : |1 + root| ≤ 8 / 5 := by rw [abs_le]; constructor <;> linarith
      nlinarith
    refine (abs_sub _ _).trans ?_
    rw [hB']
    linarith
  have q1 := sq_le_sq' (by linarith [neg_abs_le ((x.a : ℝ) + x.b * (-(1 + root) / 2) + x.c * ((1 + root) ^ 2 / 2 - (1 + root + root ^ 2)))]) ((le_abs_self _).trans k1)
  have q2 := sq_le_sq' (by linarith [neg_abs_le ((x.b : ℝ) - x.c * (1 + root))]) ((le_abs_self _).trans k2)
  have k3 : (1 + root + root ^ 2) - (1 + root) ^ 2 / 4 ≤ 2 := by nlinarith
  have k4 : 0 ≤ (1 + root + root ^ 2) - (1 + root) ^ 2 / 4 := by nlinarith
  unfold conj
  have q3 : ((1 + root + root ^ 2) - (1 + root) ^ 2 / 4) * ((x.b : ℝ) - x.c * (1 + root)) ^ 2 ≤ 2 * (8 / 5 * B) ^ 2 :=
    mul_le_mul k3 q2 (sq_nonneg _) (by norm_num)
  nlinarith [sq_nonneg B]

/-- The smallest `n ≥ k` with `x < (n + 1) * y`, if this is at most `k + fuel`. -/
def search (x y : Cubic) : ℕ → ℕ → ℕ
  | 0, k => k
  | fuel + 1, k => if ((k + 1 : ℕ) : Cubic) * y ≤ x then search x y fuel (k + 1) else k

theorem search_spec {x y : Cubic} : ∀ fuel k : ℕ, ((k : ℕ) : Cubic) * y ≤ x → x < ((k + fuel : ℕ) + 1 : Cubic) * y →
    ((search x y fuel k : ℕ) : Cubic) * y ≤ x ∧ x < ((search x y fuel k : ℕ) + 1 : Cubic) * y
  | 0, k, h, h' => ⟨h, by simpa [search] using h'⟩
  | fuel + 1, k, h, h' => by
    unfold search
    split
    · rename_i hk
      apply search_spec fuel (k + 1) hk
      rwa [Nat.add_assoc, Nat.add_comm 1]
    · rename_i hk
      refine ⟨h, ?_⟩
      have := not_le.mp hk
      push_cast at this
      exact this

end Cubic

/-- Floor division in `ℤ[α]`. -/
def cubicFloorDivision (x y : Cubic) : M ℤ := .ok (Cubic.search x y (x.bound * (7 * y.bound ^ 2)) 0)

/-- Coefficients over the basis `1, α, α²`. -/
def cubicCoef : Cubic →+ (Fin 3 → ℚ) where
  toFun x i := if i = 0 then x.a else if i = 1 then x.b else x.c
  map_zero' := by funext i; simp
  map_add' x y := by funext i; simp; split <;> [simp; split <;> simp]

theorem cubicCoef_injective (x : Cubic) (h : cubicCoef x = 0) : x = 0 := by
  have h0 := congrFun h 0
  have h1 := congrFun h 1
  have h2 := congrFun h 2
  simp [cubicCoef] at h0 h1 h2
  ext
  · exact h0
  · exact h1
  · exact h2

/-- The arithmetic of `ℤ[α]`. -/
def cubicArith : Arith Cubic := ⟨cubicFloorDivision, fun l => .ok (l.map (fun x => [(x.a : ℚ), (x.b : ℚ), (x.c : ℚ)]))⟩

theorem cubicArith_lawful : cubicArith.Lawful cubicCoef where
  fdiv_spec x y hx hy := by
    have h : x < ((0 + x.bound * (7 * y.bound ^ 2) : ℕ) + 1 : Cubic) * y := by
      rw [Cubic.lt_iff, map_mul, map_add, map_natCast, map_one]
      have hy' : 0 < Cubic.toReal y := by rw [← map_zero Cubic.toReal]; exact Cubic.toReal_strictMono hy
      have h1 := Cubic.toReal_le_bound x
      have h2 := Cubic.conj_le y
      have h3 : (1 : ℝ) ≤ y.norm := by
        have : 0 < y.norm := (Cubic.toReal_pos_iff y).mp hy'
        exact_mod_cast this
      rw [Cubic.norm_eq] at h3
      have h4 : 1 ≤ Cubic.toReal y * (7 * (y.bound : ℝ) ^ 2) := h3.trans (mul_le_mul_of_nonneg_left h2 hy'.le)
      have h5 : (x.bound : ℝ) * 1 ≤ x.bound * (Cubic.toReal y * (7 * (y.bound : ℝ) ^ 2)) :=
        mul_le_mul_of_nonneg_left h4 (Nat.cast_nonneg _)
      push_cast
      nlinarith
    obtain ⟨q1, q2⟩ := Cubic.search_spec (x.bound * (7 * y.bound ^ 2)) 0 (by simpa using hx) h
    exact ⟨_, rfl, by simpa using q1, by simpa using q2⟩
  coeffs_spec l := by simp [cubicArith, cubicCoef, List.ofFn_succ]

/-- The sample lengths over `ℤ[α]` satisfy the contract. -/
def hCubic := SLengths.lawful cubicArith_lawful

/-- The interval exchange transformation of Arnoux and Yoccoz; the lengths are twice `(1 - α)/2`, `α - 1/2`, `α/2`, `α²/2`, `α²/2`,
`α³/2`, `α³/2`. -/
def cubicIET : IET Cubic := .fresh [0, 1, 2, 3, 4, 5, 6] [1, 4, 3, 6, 5, 2, 0]
/-- Its lengths. -/
def cubicState : SLengths Cubic := ⟨[], [⟨1, -1, 0⟩, ⟨-1, 2, 0⟩, ⟨0, 1, 0⟩, ⟨0, 0, 1⟩, ⟨0, 0, 1⟩, ⟨1, -1, -1⟩, ⟨1, -1, -1⟩]⟩

theorem cubic_ok : hCubic.Ok cubicIET cubicState := sample_ok _ _ _ _ (by decide)

end Verif.Examples
