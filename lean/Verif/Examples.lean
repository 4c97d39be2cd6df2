import Verif.Proofs.Reach
import Verif.Proofs.Sample
import Verif.Proofs.Subspace
import Verif.Proofs.Arithmetic
import Mathlib.NumberTheory.Zsqrtd.Basic
import Mathlib.Tactic.IntervalCases
import Mathlib.Tactic.Positivity

/-!
# Concrete instances

Lengths in `ℤ` (as in `sample::Lengths<int>`), in `ℚ` (`sample::Lengths<mpq_class>`) and in the ring `ℤ[√2]` which stands
for a number field (`sample::Lengths<renf_elem_class>`, e-antic itself is not modelled).  They are used to show that the
hypotheses of the property theorems can be met.
-/

namespace Verif.Examples

instance : Zsqrtd.Nonsquare 2 := ⟨fun n h => by
  rcases Nat.lt_or_ge n 2 with h' | h'
  · interval_cases n <;> omega
  · nlinarith⟩

/-- The ring `ℤ[√2]`. -/
abbrev Q2 := Zsqrtd ((2 : ℕ) : ℤ)

/-- An integer that is at least `|x|` in both embeddings. -/
def bound (x : Q2) : ℕ := x.re.natAbs + 2 * x.im.natAbs

/-- The largest `n ≤ k` with `n * y ≤ x` (or zero). -/
def search (x y : Q2) : ℕ → ℕ
  | 0 => 0
  | k + 1 => if ((k + 1 : ℕ) : Q2) * y ≤ x then k + 1 else search x y k

/-- Floor division in `ℤ[√2]`. -/
def q2FloorDivision (x y : Q2) : M ℤ := .ok (search x y (bound x * bound y))

/-- Coefficients over the basis `1, √2`. -/
def q2Coef : Q2 →+ (Fin 2 → ℚ) where
  toFun x i := if i = 0 then x.re else x.im
  map_zero' := by funext i; simp
  map_add' x y := by funext i; simp; split <;> simp

/-- The arithmetic of `ℤ[√2]`. -/
def q2Arith : Arith Q2 := ⟨q2FloorDivision, fun l => .ok (l.map (fun x => [(x.re : ℚ), (x.im : ℚ)]))⟩

theorem search_spec {x y : Q2} (hx : 0 ≤ x) : ∀ k : ℕ, x < ((k : ℕ) + 1 : Q2) * y →
    ((search x y k : ℕ) : Q2) * y ≤ x ∧ x < ((search x y k : ℕ) + 1 : Q2) * y
  | 0, h => ⟨by simpa [search] using hx, by simpa [search] using h⟩
  | k + 1, h => by
    unfold search
    split
    · rename_i h'; exact ⟨h', h⟩
    · rename_i h'
      apply search_spec hx k
      have := not_le.mp h'
      push_cast at this
      exact this

theorem sqrt_two_nonneg : (0 : Q2) ≤ ⟨0, 1⟩ := by decide
theorem sqrt_two_le : (⟨0, 1⟩ : Q2) ≤ 2 := by decide

theorem eq_add (x : Q2) : x = (x.re : Q2) + (x.im : Q2) * ⟨0, 1⟩ := by
  ext <;> simp

theorem int_le_natAbs (z : ℤ) : (z : Q2) ≤ (z.natAbs : ℕ) := by
  have : z ≤ (z.natAbs : ℤ) := Int.le_natAbs
  calc (z : Q2) ≤ ((z.natAbs : ℤ) : Q2) := by exact_mod_cast this
    _ = _ := Int.cast_natCast _

theorem le_bound (x : Q2) : x ≤ (bound x : ℕ) := by
  rw [eq_add x]
  have h1 := int_le_natAbs x.re
  have h2 : (x.im : Q2) * ⟨0, 1⟩ ≤ (x.im.natAbs : ℕ) * 2 :=
    mul_le_mul (int_le_natAbs _) sqrt_two_le sqrt_two_nonneg (by positivity)
  have e : bound ((x.re : Q2) + (x.im : Q2) * ⟨0, 1⟩) = bound x := by rw [← eq_add]
  rw [e]
  unfold bound
  push_cast
  calc _ ≤ ((x.re.natAbs : ℕ) : Q2) + (x.im.natAbs : ℕ) * 2 := add_le_add h1 h2
    _ = _ := by push_cast; ring

theorem bound_neg (x : Q2) : bound (-x) = bound x := by simp [bound]
theorem bound_star (x : Q2) : bound (star x) = bound x := by simp [bound]

theorem one_le_mul_bound {y : Q2} (hy : 0 < y) : 1 ≤ y * (bound y : ℕ) := by
  have h1 : ∀ z : Q2, bound z = bound y → y * z ≤ y * (bound y : ℕ) := fun z hz =>
    mul_le_mul_of_nonneg_left (hz ▸ le_bound z) hy.le
  have hn : y * star y = (y.norm : Q2) := (Zsqrtd.norm_eq_mul_conj y).symm
  have h0 : y.norm ≠ 0 := by
    intro h
    have hz : y * star y = 0 := by rw [hn, h]; simp
    rcases mul_eq_zero.mp hz with h' | h'
    · exact ne_of_gt hy h'
    · exact ne_of_gt hy (star_eq_zero.mp h')
  rcases lt_or_gt_of_ne h0 with h | h
  · have := h1 (-star y) (by rw [bound_neg, bound_star])
    rw [mul_neg, hn] at this
    refine le_trans ?_ this
    have : (1 : ℤ) ≤ - y.norm := by omega
    have : ((1 : ℤ) : Q2) ≤ ((- y.norm : ℤ) : Q2) := by exact_mod_cast this
    simpa using this
  · have := h1 (star y) (bound_star y)
    rw [hn] at this
    refine le_trans ?_ this
    have : (1 : ℤ) ≤ y.norm := by omega
    have : ((1 : ℤ) : Q2) ≤ ((y.norm : ℤ) : Q2) := by exact_mod_cast this
    simpa using this

theorem q2Arith_lawful : q2Arith.Lawful q2Coef where
  fdiv_spec x y hx hy := by
    have h : x < ((bound x * bound y : ℕ) + 1 : Q2) * y := by
      have h1 := le_bound x
      have h2 : ((bound x : ℕ) : Q2) * 1 ≤ (bound x : ℕ) * (y * (bound y : ℕ)) :=
        mul_le_mul_of_nonneg_left (one_le_mul_bound hy) (by positivity)
      push_cast
      linarith
    obtain ⟨q1, q2⟩ := search_spec hx _ h
    exact ⟨_, rfl, by simpa using q1, by simpa using q2⟩
  coeffs_spec l := by simp [q2Arith, q2Coef, List.ofFn_succ]

/-- `sample::Lengths<int>` satisfies the contract. -/
def hInt := SLengths.lawful intArith_lawful
/-- `sample::Lengths<mpq_class>` satisfies the contract. -/
def hRat := SLengths.lawful mpqArith_lawful
/-- The sample lengths over `ℤ[√2]` satisfy the contract. -/
def hQ2 := SLengths.lawful q2Arith_lawful

/-- A newly constructed IET with sample lengths. -/
theorem sample_ok {T : Type} [CommRing T] [LinearOrder T] [IsStrictOrderedRing T] {d : ℕ} {c : T →+ (Fin d → ℚ)} {A : Arith T}
    (hA : A.Lawful c) (top bottom : List Label) (lens : List T)
    (h : top ≠ [] ∧ top.Nodup ∧ bottom.Perm top ∧ (∀ a ∈ top, a < lens.length ∧ 0 < lens.getD a 0) ∧ ∀ x ∈ lens, 0 ≤ x) :
    (SLengths.lawful hA).Ok (IET.fresh top bottom) ⟨[], lens⟩ := by
  obtain ⟨h1, h2, h3, h4, h5⟩ := h
  refine ⟨trivial, rfl, fun a ha => (h4 a ha).1, ⟨h1, h2, h3, fun a ha => (h4 a ha).2⟩, ?_⟩
  intro a ha
  have ha : a < lens.length := ha
  show 0 ≤ lens.getD a 0
  rw [List.getD_eq_getElem _ _ ha]
  exact h5 _ (List.getElem_mem ha)

/-- A world with a single new IET is reachable. -/
theorem sample_reachable {σ T ε : Type} [CommRing T] [LinearOrder T] {O : LengthsOps σ T} {d : ℕ} {c : T →+ (Fin d → ℚ)}
    (H : LawfulLengths O c ε) (L : PPL) {top bottom : List Label} {s : σ} (h : H.Ok (IET.fresh top bottom) s) :
    Reachable H L ⟨[IET.fresh top bottom], s⟩ :=
  .init (by simp; exact ⟨rfl, h⟩) (by simp)

/-- Four intervals of integer length where `zorichInduction` makes several full twists:
`0` has length 50 and the intervals `3, 2, 1` before it in the bottom have lengths 7, 3, 5. -/
def intTop : List Label := [0, 1, 2, 3]
def intBottom : List Label := [3, 2, 1, 0]
def intLens : List ℤ := [50, 5, 3, 7]
/-- The IET. -/
def intIET : IET ℤ := .fresh intTop intBottom
/-- Its lengths. -/
def intState : SLengths ℤ := ⟨[], intLens⟩

theorem int_ok : hInt.Ok intIET intState := sample_ok _ _ _ _ (by decide)

/-- Four intervals with lengths in `ℤ[√2]`. -/
def q2Lens : List Q2 := [⟨1, 2⟩, ⟨3, -1⟩, ⟨0, 1⟩, ⟨5, -3⟩]
/-- The IET. -/
def q2IET : IET Q2 := .fresh [0, 1, 2, 3] [2, 3, 1, 0]
/-- Its lengths. -/
def q2State : SLengths Q2 := ⟨[], q2Lens⟩

theorem q2_ok : hQ2.Ok q2IET q2State := sample_ok _ _ _ _ (by decide)

/-- A reducible IET with lengths in `ℤ[√2]`. -/
def redIET : IET Q2 := .fresh [0, 1, 2, 3, 4] [1, 0, 4, 3, 2]
/-- Its lengths. -/
def redState : SLengths Q2 := ⟨[], [⟨1, 0⟩, ⟨0, 1⟩, ⟨2, 0⟩, ⟨3, -2⟩, ⟨0, 3⟩]⟩

theorem red_ok : hQ2.Ok redIET redState := sample_ok _ _ _ _ (by decide)

end Verif.Examples
