import Verif.Examples
import Mathlib.Data.Real.Basic
import Mathlib.Topology.Order.IntermediateValue
import Mathlib.Topology.Instances.Real.Lemmas
import Mathlib.Tactic.Linarith
import Mathlib.Tactic.LinearCombination
import Mathlib.Data.ZMod.Basic

/-!
# A totally real cubic number field

The ring `ℤ[λ]` with `λ³ = 3 λ² + λ - 1`, where `λ ≈ 3.214` is the largest of the three real roots, stands for a cubic number field
(`sample::Lengths<renf_elem_class>`, e-antic itself is not modelled).  To find the sign of an element, divide the minimal polynomial of
`λ` by the element (as a polynomial in `λ`); the quotient and the remainder are linear, so their signs can be read off from the position
of a rational number relative to `λ`.

There is an exchange of eight intervals with lengths in this ring which has periodic points although the code claims that there are none,
see `C23_refuted`.
-/

namespace Verif.Examples

/-- The element `a + b λ + c λ²` of `ℤ[λ]`. -/
@[ext] structure Tri where
  a : ℤ
  b : ℤ
  c : ℤ
deriving DecidableEq

namespace Tri

instance : Zero Tri := ⟨⟨0, 0, 0⟩⟩
instance : One Tri := ⟨⟨1, 0, 0⟩⟩
instance : Add Tri := ⟨fun x y => ⟨x.a + y.a, x.b + y.b, x.c + y.c⟩⟩
instance : Neg Tri := ⟨fun x => ⟨-x.a, -x.b, -x.c⟩⟩
instance : Sub Tri := ⟨fun x y => ⟨x.a - y.a, x.b - y.b, x.c - y.c⟩⟩
/-- `λ³ = 3 λ² + λ - 1`, `λ⁴ = 10 λ² + 2 λ - 3` -/
instance : Mul Tri := ⟨fun x y => ⟨x.a * y.a - (x.b * y.c + x.c * y.b) - 3 * (x.c * y.c),
  x.a * y.b + x.b * y.a + (x.b * y.c + x.c * y.b) + 2 * (x.c * y.c),
  x.a * y.c + x.b * y.b + x.c * y.a + 3 * (x.b * y.c + x.c * y.b) + 10 * (x.c * y.c)⟩⟩
instance : NatCast Tri := ⟨fun n => ⟨n, 0, 0⟩⟩
instance : IntCast Tri := ⟨fun n => ⟨n, 0, 0⟩⟩

@[simp] theorem zero_a : (0 : Tri).a = 0 := rfl
@[simp] theorem zero_b : (0 : Tri).b = 0 := rfl
@[simp] theorem zero_c : (0 : Tri).c = 0 := rfl
@[simp] theorem one_a : (1 : Tri).a = 1 := rfl
@[simp] theorem one_b : (1 : Tri).b = 0 := rfl
@[simp] theorem one_c : (1 : Tri).c = 0 := rfl
@[simp] theorem add_a (x y : Tri) : (x + y).a = x.a + y.a := rfl
@[simp] theorem add_b (x y : Tri) : (x + y).b = x.b + y.b := rfl
@[simp] theorem add_c (x y : Tri) : (x + y).c = x.c + y.c := rfl
@[simp] theorem neg_a (x : Tri) : (-x).a = -x.a := rfl
@[simp] theorem neg_b (x : Tri) : (-x).b = -x.b := rfl
@[simp] theorem neg_c (x : Tri) : (-x).c = -x.c := rfl
@[simp] theorem sub_a (x y : Tri) : (x - y).a = x.a - y.a := rfl
@[simp] theorem sub_b (x y : Tri) : (x - y).b = x.b - y.b := rfl
@[simp] theorem sub_c (x y : Tri) : (x - y).c = x.c - y.c := rfl
@[simp] theorem mul_a (x y : Tri) : (x * y).a = x.a * y.a - (x.b * y.c + x.c * y.b) - 3 * (x.c * y.c) := rfl
@[simp] theorem mul_b (x y : Tri) : (x * y).b = x.a * y.b + x.b * y.a + (x.b * y.c + x.c * y.b) + 2 * (x.c * y.c) := rfl
@[simp] theorem mul_c (x y : Tri) : (x * y).c = x.a * y.c + x.b * y.b + x.c * y.a + 3 * (x.b * y.c + x.c * y.b) + 10 * (x.c * y.c) := rfl
@[simp] theorem natCast_a (n : ℕ) : (n : Tri).a = n := rfl
@[simp] theorem natCast_b (n : ℕ) : (n : Tri).b = 0 := rfl
@[simp] theorem natCast_c (n : ℕ) : (n : Tri).c = 0 := rfl

instance : CommRing Tri where
  add_assoc _ _ _ := by ext <;> simp <;> ring
  zero_add _ := by ext <;> simp
  add_zero _ := by ext <;> simp
  add_comm _ _ := by ext <;> simp <;> ring
  left_distrib _ _ _ := by ext <;> simp <;> ring
  right_distrib _ _ _ := by ext <;> simp <;> ring
  zero_mul _ := by ext <;> simp
  mul_zero _ := by ext <;> simp
  mul_assoc _ _ _ := by ext <;> simp <;> ring
  one_mul _ := by ext <;> simp
  mul_one _ := by ext <;> simp
  mul_comm _ _ := by ext <;> simp <;> ring
  neg_add_cancel _ := by ext <;> simp
  sub_eq_add_neg _ _ := by ext <;> simp <;> ring
  nsmul := nsmulRec
  zsmul := zsmulRec
  natCast_zero := rfl
  natCast_succ n := by ext <;> simp
  intCast_ofNat n := rfl
  intCast_negSucc n := by
    show (⟨Int.negSucc n, 0, 0⟩ : Tri) = -(⟨((n + 1 : ℕ) : ℤ), 0, 0⟩ : Tri)
    ext
    · show Int.negSucc n = -((n + 1 : ℕ) : ℤ); omega
    · rfl
    · rfl

/-- The product of the other two conjugates. -/
def adj (x : Tri) : Tri :=
  ⟨(x.a + x.c) * (x.a + 3 * x.b + 10 * x.c) - (x.b + 2 * x.c) * (x.b + 3 * x.c),
    x.c * (x.b + 2 * x.c) - x.b * (x.a + 3 * x.b + 10 * x.c), x.b * (x.b + 3 * x.c) - x.c * (x.a + x.c)⟩

/-- The norm. -/
def norm (x : Tri) : ℤ := x.a * x.adj.a - x.c * x.adj.b - (x.b + 3 * x.c) * x.adj.c

theorem mul_adj (x : Tri) : x * x.adj = (x.norm : Tri) := by
  ext
  · show _ = x.norm
    simp only [mul_a, norm, adj]; ring
  · show _ = 0
    simp only [mul_b, adj]; ring
  · show _ = 0
    simp only [mul_c, adj]; ring

theorem norm_zmod : ∀ a b c : ZMod 3, a * ((a + c) * (a + 3 * b + 10 * c) - (b + 2 * c) * (b + 3 * c)) -
    c * (c * (b + 2 * c) - b * (a + 3 * b + 10 * c)) - (b + 3 * c) * (b * (b + 3 * c) - c * (a + c)) = 0 → a = 0 ∧ b = 0 ∧ c = 0 := by
  decide

/-- The norm form does not represent zero. -/
theorem norm_eq_zero : ∀ (n : ℕ) (x : Tri), x.a.natAbs + x.b.natAbs + x.c.natAbs ≤ n → x.norm = 0 → x = 0 := by
  intro n
  induction n with
  | zero =>
    intro x hx _
    ext
    · show x.a = 0; omega
    · show x.b = 0; omega
    · show x.c = 0; omega
  | succ n ih =>
    intro x hx h
    have h3 := congrArg (fun z : ℤ => (z : ZMod 3)) h
    simp only [norm, adj] at h3
    push_cast at h3
    obtain ⟨ha, hb, hc⟩ := norm_zmod _ _ _ h3
    rw [ZMod.intCast_zmod_eq_zero_iff_dvd] at ha hb hc
    obtain ⟨a, ha⟩ := ha
    obtain ⟨b, hb⟩ := hb
    obtain ⟨c, hc⟩ := hc
    push_cast at ha hb hc
    have h' : (⟨a, b, c⟩ : Tri).norm = 0 := by
      simp only [norm, adj] at h ⊢
      rw [ha, hb, hc] at h
      linarith
    by_cases hz : a.natAbs + b.natAbs + c.natAbs = 0
    · ext
      · show x.a = 0; omega
      · show x.b = 0; omega
      · show x.c = 0; omega
    · have := ih ⟨a, b, c⟩ (by simp only; omega) h'
      rw [Tri.ext_iff] at this
      simp only [zero_a, zero_b, zero_c] at this
      omega

theorem norm_eq_zero_iff (x : Tri) : x.norm = 0 ↔ x = 0 :=
  ⟨norm_eq_zero _ x (le_refl _), fun h => by subst h; rfl⟩

/-- There is a root of the polynomial between three and four. -/
theorem exists_root : ∃ r : ℝ, r ^ 3 = 3 * r ^ 2 + r - 1 ∧ 3 < r ∧ r < 4 := by
  have hc : ContinuousOn (fun x : ℝ => x ^ 3 - 3 * x ^ 2 - x + 1) (Set.Icc 3 4) := by fun_prop
  obtain ⟨x, ⟨h1, h2⟩, h3⟩ := intermediate_value_Icc (by norm_num : (3 : ℝ) ≤ 4) hc
    (show (0 : ℝ) ∈ Set.Icc _ _ by constructor <;> norm_num)
  refine ⟨x, by simp only at h3; linarith, lt_of_le_of_ne h1 ?_, lt_of_le_of_ne h2 ?_⟩
  · rintro rfl; norm_num at h3
  · rintro rfl; norm_num at h3

/-- The largest root. -/
noncomputable def root : ℝ := exists_root.choose
theorem root_eq : root ^ 3 = 3 * root ^ 2 + root - 1 := exists_root.choose_spec.1
theorem lt_root : 3 < root := exists_root.choose_spec.2.1
theorem root_lt : root < 4 := exists_root.choose_spec.2.2

/-- The embedding into the real numbers. -/
noncomputable def toReal : Tri →+* ℝ where
  toFun x := x.a + x.b * root + x.c * root ^ 2
  map_zero' := by simp
  map_one' := by simp
  map_add' x y := by simp only [add_a, add_b, add_c]; push_cast; ring
  map_mul' x y := by
    simp only [mul_a, mul_b, mul_c]
    push_cast
    linear_combination (-((x.b : ℝ) * y.c + x.c * y.b) - x.c * y.c * root - 3 * (x.c * y.c)) * root_eq

theorem toReal_apply (x : Tri) : toReal x = x.a + x.b * root + x.c * root ^ 2 := rfl

theorem toReal_eq_zero_iff (x : Tri) : toReal x = 0 ↔ x = 0 := by
  constructor
  · intro h
    have := congrArg toReal (mul_adj x)
    rw [map_mul, h, zero_mul, map_intCast] at this
    exact (norm_eq_zero_iff x).mp (by exact_mod_cast this.symm)
  · rintro rfl; exact map_zero _

theorem toReal_injective : Function.Injective toReal := by
  intro x y h
  have : toReal (x - y) = 0 := by rw [map_sub, h, sub_self]
  exact sub_eq_zero.mp ((toReal_eq_zero_iff _).mp this)

/-- The sign of `s - k λ` for positive `k`. -/
def cmpRoot (s k : ℤ) : ℤ := if s < 3 * k then -1 else (s ^ 3 - 3 * s ^ 2 * k - s * k ^ 2 + k ^ 3).sign

/-- The sign of `m + n λ`. -/
def sgnLin (m n : ℤ) : ℤ := if n = 0 then m.sign else if n < 0 then cmpRoot m (-n) else -cmpRoot (-m) n

/-- The sign of an element. -/
def sgn (x : Tri) : ℤ :=
  if x.c = 0 then sgnLin x.a x.b
  else -(sgnLin (x.c ^ 2 + 3 * x.c * x.a + x.a * x.b) (x.b ^ 2 + 3 * x.c * x.b - x.c * x.a - x.c ^ 2) * sgnLin (-3 * x.c - x.b) x.c)

/-- `n` is the sign of `r`. -/
def IsSign (n : ℤ) (r : ℝ) : Prop := (n = 1 ∧ 0 < r) ∨ (n = 0 ∧ r = 0) ∨ (n = -1 ∧ r < 0)

theorem IsSign.neg {n : ℤ} {r : ℝ} (h : IsSign n r) : IsSign (-n) (-r) := by
  rcases h with ⟨rfl, h⟩ | ⟨rfl, h⟩ | ⟨rfl, h⟩
  · exact .inr (.inr ⟨rfl, by linarith⟩)
  · exact .inr (.inl ⟨rfl, by linarith⟩)
  · exact .inl ⟨rfl, by linarith⟩

theorem isSign_int (n : ℤ) : IsSign n.sign n := by
  rcases lt_trichotomy n 0 with h | h | h
  · exact .inr (.inr ⟨Int.sign_eq_neg_one_of_neg h, by exact_mod_cast h⟩)
  · exact .inr (.inl ⟨by rw [h]; rfl, by exact_mod_cast h⟩)
  · exact .inl ⟨Int.sign_eq_one_of_pos h, by exact_mod_cast h⟩

theorem IsSign.of_mul {n : ℤ} {r t : ℝ} (h : IsSign n (r * t)) (ht : 0 < t) : IsSign n r := by
  rcases h with ⟨rfl, h⟩ | ⟨rfl, h⟩ | ⟨rfl, h⟩
  · exact .inl ⟨rfl, (mul_pos_iff_of_pos_right ht).mp h⟩
  · exact .inr (.inl ⟨rfl, (mul_eq_zero.mp h).resolve_right ht.ne'⟩)
  · exact .inr (.inr ⟨rfl, by by_contra h'; push Not at h'; exact absurd h (not_lt.mpr (mul_nonneg h' ht.le))⟩)

theorem cmpRoot_spec (s k : ℤ) (hk : 0 < k) : IsSign (cmpRoot s k) (s - k * root) := by
  have h1 := lt_root
  have hk' : (0 : ℝ) < k := by exact_mod_cast hk
  unfold cmpRoot
  split
  · rename_i h
    have h' : (s : ℝ) < 3 * k := by exact_mod_cast h
    exact .inr (.inr ⟨rfl, by nlinarith⟩)
  · rename_i h
    have h' : (3 : ℝ) * k ≤ s := by exact_mod_cast not_lt.mp h
    have := isSign_int (s ^ 3 - 3 * s ^ 2 * k - s * k ^ 2 + k ^ 3)
    have e : ((s ^ 3 - 3 * s ^ 2 * k - s * k ^ 2 + k ^ 3 : ℤ) : ℝ) =
        (s - k * root) * (s ^ 2 + s * k * (root - 3) + k ^ 2 * (root ^ 2 - 3 * root - 1)) := by
      push_cast
      linear_combination ((k : ℝ) ^ 3) * root_eq
    rw [e] at this
    refine this.of_mul ?_
    have e1 : 0 ≤ (s : ℝ) * k * (root - 3) := mul_nonneg (mul_nonneg (by nlinarith) hk'.le) (by linarith)
    have e2 : (9 : ℝ) * k ^ 2 ≤ s ^ 2 := by nlinarith
    have e3 : -((k : ℝ) ^ 2) ≤ k ^ 2 * (root ^ 2 - 3 * root - 1) := by
      have : 0 ≤ root ^ 2 - 3 * root := by nlinarith
      nlinarith [sq_nonneg (k : ℝ)]
    have e4 : 0 < (k : ℝ) ^ 2 := by positivity
    linarith

theorem sgnLin_spec (m n : ℤ) : IsSign (sgnLin m n) (m + n * root) := by
  unfold sgnLin
  split
  · rename_i h; subst h; simpa using isSign_int m
  · split
    · rename_i h
      have := cmpRoot_spec m (-n) (by omega)
      push_cast at this
      convert this using 1
      ring
    · have := (cmpRoot_spec (-m) n (by omega)).neg
      push_cast at this
      convert this using 1
      ring

theorem sgn_spec (x : Tri) : IsSign x.sgn (toReal x) := by
  unfold sgn
  split
  · rename_i h
    have := sgnLin_spec x.a x.b
    rw [toReal_apply, h]
    simpa using this
  · rename_i h
    have hq := sgnLin_spec (-3 * x.c - x.b) x.c
    have hr := sgnLin_spec (x.c ^ 2 + 3 * x.c * x.a + x.a * x.b) (x.b ^ 2 + 3 * x.c * x.b - x.c * x.a - x.c ^ 2)
    have e : toReal x * ((-3 * x.c - x.b : ℤ) + x.c * root) =
        -(((x.c ^ 2 + 3 * x.c * x.a + x.a * x.b : ℤ) : ℝ) + (x.b ^ 2 + 3 * x.c * x.b - x.c * x.a - x.c ^ 2 : ℤ) * root) := by
      rw [toReal_apply]
      push_cast
      linear_combination ((x.c : ℝ) ^ 2) * root_eq
    have hq0 : ((-3 * x.c - x.b : ℤ) : ℝ) + x.c * root ≠ 0 := by
      intro h0
      have : toReal ⟨-3 * x.c - x.b, x.c, 0⟩ = 0 := by rw [toReal_apply]; simpa using h0
      have := congrArg Tri.b ((toReal_eq_zero_iff _).mp this)
      exact h this
    have hr' := hr.neg
    rw [← e] at hr'
    rw [← neg_mul]
    rcases hq with ⟨e1, hq⟩ | ⟨_, hq⟩ | ⟨e1, hq⟩
    · rw [e1, mul_one]
      exact hr'.of_mul hq
    · exact absurd hq hq0
    · rw [e1, mul_neg, mul_one]
      have := hr'.neg
      rw [← mul_neg] at this
      exact this.of_mul (by linarith)

theorem toReal_pos_iff (x : Tri) : 0 < toReal x ↔ 0 < x.sgn := by
  rcases sgn_spec x with ⟨e, h⟩ | ⟨e, h⟩ | ⟨e, h⟩ <;> rw [e] <;> constructor <;> intro h' <;> first | omega | linarith

theorem toReal_nonneg_iff (x : Tri) : 0 ≤ toReal x ↔ 0 ≤ x.sgn := by
  rcases sgn_spec x with ⟨e, h⟩ | ⟨e, h⟩ | ⟨e, h⟩ <;> rw [e] <;> constructor <;> intro h' <;> first | omega | linarith

instance : LE Tri := ⟨fun x y => 0 ≤ (y - x).sgn⟩
instance : LT Tri := ⟨fun x y => 0 < (y - x).sgn⟩
instance : DecidableLE Tri := fun x y => inferInstanceAs (Decidable (0 ≤ (y - x).sgn))
instance : DecidableLT Tri := fun x y => inferInstanceAs (Decidable (0 < (y - x).sgn))

theorem le_iff (x y : Tri) : x ≤ y ↔ toReal x ≤ toReal y := by
  rw [← sub_nonneg (a := toReal y), ← map_sub, toReal_nonneg_iff]; rfl

theorem lt_iff (x y : Tri) : x < y ↔ toReal x < toReal y := by
  rw [← sub_pos (a := toReal y), ← map_sub, toReal_pos_iff]; rfl

instance : LinearOrder Tri where
  le_refl x := by rw [le_iff]
  le_trans x y z h1 h2 := by rw [le_iff] at *; exact h1.trans h2
  lt_iff_le_not_ge x y := by rw [le_iff, le_iff, lt_iff]; exact lt_iff_le_not_ge
  le_antisymm x y h1 h2 := by rw [le_iff] at *; exact toReal_injective (le_antisymm h1 h2)
  le_total x y := by rw [le_iff, le_iff]; exact le_total _ _
  toDecidableLE := inferInstance
  toDecidableEq := inferInstance
  toDecidableLT := inferInstance

theorem toReal_strictMono : StrictMono toReal := fun x y h => (lt_iff x y).mp h

instance : IsStrictOrderedRing Tri :=
  Function.Injective.isStrictOrderedRing toReal (map_zero _) (map_one _) (map_add _) (map_mul _) (fun {x y} => (le_iff x y).symm) (fun {x y} => (lt_iff x y).symm)

/-- A bound on the absolute value. -/
def bound (x : Tri) : ℕ := x.a.natAbs + 4 * x.b.natAbs + 16 * x.c.natAbs

theorem toReal_le_bound (x : Tri) : |toReal x| ≤ bound x := by
  have h1 := lt_root
  have h2 := root_lt
  rw [toReal_apply, bound]
  push_cast
  simp only [Nat.cast_natAbs, Int.cast_abs]
  have hs : root ^ 2 ≤ 16 := by nlinarith
  have e1 : |(x.b : ℝ) * root| ≤ 4 * |(x.b : ℝ)| := by
    rw [abs_mul, abs_of_pos (by linarith : 0 < root)]
    nlinarith [abs_nonneg (x.b : ℝ)]
  have e2 : |(x.c : ℝ) * root ^ 2| ≤ 16 * |(x.c : ℝ)| := by
    rw [abs_mul, abs_of_nonneg (sq_nonneg root)]
    nlinarith [abs_nonneg (x.c : ℝ)]
  have e3 := abs_add_le ((x.a : ℝ) + x.b * root) (x.c * root ^ 2)
  have e4 := abs_add_le (x.a : ℝ) (x.b * root)
  linarith

/-- The smallest `n ≥ k` with `x < (n + 1) * y`, if this is at most `k + fuel`. -/
def search (x y : Tri) : ℕ → ℕ → ℕ
  | 0, k => k
  | fuel + 1, k => if ((k + 1 : ℕ) : Tri) * y ≤ x then search x y fuel (k + 1) else k

theorem search_spec {x y : Tri} : ∀ fuel k : ℕ, ((k : ℕ) : Tri) * y ≤ x → x < ((k + fuel : ℕ) + 1 : Tri) * y →
    ((search x y fuel k : ℕ) : Tri) * y ≤ x ∧ x < ((search x y fuel k : ℕ) + 1 : Tri) * y
  | 0, k, h, h' => ⟨h, by simpa [search] using h'⟩
  | fuel + 1, k, h, h' => by
    unfold search
    split
    · rename_i hk
      apply search_spec fuel (k + 1) hk
      rwa [Nat.add_assoc, Nat.add_comm 1]
    · rename_i hk
      refine ⟨h, ?_⟩
      have := not_le.mp hk
      push_cast at this
      exact this

end Tri

/-- Floor division in `ℤ[λ]`. -/
def triFloorDivision (x y : Tri) : M ℤ := .ok (Tri.search x y (x.bound * y.adj.bound) 0)

/-- Coefficients over the basis `1, λ, λ²`. -/
def triCoef : Tri →+ (Fin 3 → ℚ) where
  toFun x i := if i = 0 then x.a else if i = 1 then x.b else x.c
  map_zero' := by funext i; simp
  map_add' x y := by funext i; simp; split <;> [simp; split <;> simp]

theorem triCoef_injective (x : Tri) (h : triCoef x = 0) : x = 0 := by
  have h0 := congrFun h 0
  have h1 := congrFun h 1
  have h2 := congrFun h 2
  simp [triCoef] at h0 h1 h2
  ext
  · exact h0
  · exact h1
  · exact h2

/-- The arithmetic of `ℤ[λ]`. -/
def triArith : Arith Tri := ⟨triFloorDivision, fun l => .ok (l.map (fun x => [(x.a : ℚ), (x.b : ℚ), (x.c : ℚ)]))⟩

theorem triArith_lawful : triArith.Lawful triCoef where
  fdiv_spec x y hx hy := by
    have h : x < ((0 + x.bound * y.adj.bound : ℕ) + 1 : Tri) * y := by
      rw [Tri.lt_iff, map_mul, map_add, map_natCast, map_one]
      have hy' : 0 < Tri.toReal y := by rw [← map_zero Tri.toReal]; exact Tri.toReal_strictMono hy
      have h1 := (le_abs_self _).trans (Tri.toReal_le_bound x)
      have h2 := Tri.toReal_le_bound y.adj
      have h3 : (1 : ℝ) ≤ |(y.norm : ℝ)| := by
        have : y.norm ≠ 0 := fun h => hy.ne' ((Tri.norm_eq_zero_iff y).mp h)
        exact_mod_cast Int.one_le_abs this
      have e := congrArg Tri.toReal (Tri.mul_adj y)
      rw [map_mul, map_intCast] at e
      rw [← e, abs_mul, abs_of_pos hy'] at h3
      have h4 : 1 ≤ Tri.toReal y * (y.adj.bound : ℝ) := h3.trans (mul_le_mul_of_nonneg_left h2 hy'.le)
      have h5 : (x.bound : ℝ) * 1 ≤ x.bound * (Tri.toReal y * (y.adj.bound : ℝ)) :=
        mul_le_mul_of_nonneg_left h4 (Nat.cast_nonneg _)
      push_cast
      nlinarith
    obtain ⟨q1, q2⟩ := Tri.search_spec (x.bound * y.adj.bound) 0 (by simpa using hx) h
    exact ⟨_, rfl, by simpa using q1, by simpa using q2⟩
  coeffs_spec l := by simp [triArith, triCoef, List.ofFn_succ]

/-- The sample lengths over `ℤ[λ]` satisfy the contract. -/
def hTri := SLengths.lawful triArith_lawful

/-- An exchange of eight intervals that has periodic points. -/
def triIET : IET Tri := .fresh [0, 1, 2, 3, 4, 5, 6, 7] [5, 2, 6, 4, 7, 1, 3, 0]
/-- Its lengths. -/
def triState : SLengths Tri := ⟨[], [⟨-29, 1, 63⟩, ⟨-24, 3, 66⟩, ⟨-30, -2, 73⟩, ⟨-9, 12, 38⟩, ⟨0, 16, 31⟩, ⟨-14, 2, 29⟩,
  ⟨-25, -7, 46⟩, ⟨-16, 9, 49⟩]⟩

theorem tri_ok : hTri.Ok triIET triState := sample_ok _ _ _ _ (by decide)

end Verif.Examples
