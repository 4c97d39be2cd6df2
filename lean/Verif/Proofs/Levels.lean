import Mathlib.Data.Finset.Card
import Mathlib.Data.Finset.Max
import Mathlib.Logic.Equiv.Defs
import Mathlib.Algebra.Order.Field.Rat
import Mathlib.Logic.Function.Iterate
import Mathlib.Tactic.Linarith
import Mathlib.Data.Nat.Find

/-!
# Invertible maps of points with levels

The points are the points of a lattice in a vertical strip, the level is the height.  There are only few points in horizontal slices of the
strip, the map moves the points up or down by a bounded distance and what happens once happens again and again at all heights.  We show that
then every orbit goes up without ever going down much, or goes down without ever going up much.
-/

namespace Verif

variable {X : Type} {f : X ≃ X} {y : X → ℚ}

structure Levels (f : X ≃ X) (y : X → ℚ) : Prop where
  /-- There are not many points in a slice, however high it is. -/
  count : ∀ h : ℚ, ∃ N : ℕ, ∀ (K : ℚ) (s : Finset X), (∀ p ∈ s, K ≤ y p ∧ y p ≤ K + h) → s.card ≤ N
  /-- Points are not moved far. -/
  step : ∃ D : ℚ, ∀ p, |y (f p) - y p| ≤ D
  /-- What happens once happens everywhere. -/
  recur : ∀ (p : X) (n : ℕ), ∃ G : ℚ, ∀ s : ℚ, ∃ q, s ≤ y q ∧ y q ≤ s + G ∧ ∀ j ≤ n, y (f^[j] q) - y q = y (f^[j] p) - y p
  /-- There are no periodic points. -/
  free : ∀ (p : X) (n : ℕ), f^[n] p = p → n = 0

theorem Levels.neg (h : Levels f y) : Levels f (fun p => - y p) where
  count k := by
    obtain ⟨N, hN⟩ := h.count k
    refine ⟨N, fun K s hs => hN (-(K + k)) s (fun p hp => ?_)⟩
    have := hs p hp
    constructor <;> linarith
  step := by
    obtain ⟨D, hD⟩ := h.step
    refine ⟨D, fun p => ?_⟩
    have := hD p
    rw [abs_le] at this ⊢
    constructor <;> linarith
  recur p n := by
    obtain ⟨G, hG⟩ := h.recur p n
    refine ⟨G, fun s => ?_⟩
    obtain ⟨q, h1, h2, h3⟩ := hG (-(s + G))
    refine ⟨q, by linarith, by linarith, fun j hj => ?_⟩
    have := h3 j hj
    linarith
  free := h.free

theorem exists_bound (g : ℕ → ℚ) : ∀ n : ℕ, ∃ A, ∀ j ≤ n, g j ≤ A
  | 0 => ⟨g 0, fun j hj => by rw [Nat.le_zero.mp hj]⟩
  | n + 1 => by
    obtain ⟨A, hA⟩ := exists_bound g n
    refine ⟨max A (g (n + 1)), fun j hj => ?_⟩
    rcases Nat.lt_or_ge n j with h | h
    · rw [show j = n + 1 by omega]; exact le_max_right _ _
    · exact le_trans (hA j h) (le_max_left _ _)

/-- If orbits go up arbitrarily far and come back then they do so simultaneously. -/
theorem Levels.many (h : Levels f y) (hcap : ∀ B : ℚ, ∃ p n i, i ≤ n ∧ max (y p) (y (f^[n] p)) + B ≤ y (f^[i] p)) :
    ∀ M : ℕ, ∃ G A : ℚ, ∀ s : ℚ, ∃ L, s ≤ L ∧ L ≤ s + G ∧ ∃ S : Finset X, S.card = M ∧ ∀ u ∈ S, L < y u ∧ y (f.symm u) ≤ L ∧
      ∃ n, y (f^[n] u) ≤ L ∧ ∀ j ≤ n, y (f^[j] u) ≤ L + A := by
  classical
  intro M
  induction M with
  | zero => exact ⟨0, 0, fun s => ⟨s, le_refl _, by linarith, ∅, rfl, by simp⟩⟩
  | succ M ih =>
    obtain ⟨G, A, hGA⟩ := ih
    obtain ⟨p, n, i, hin, hi⟩ := hcap (max 0 A + G + 1)
    obtain ⟨A₁, hA₁⟩ := exists_bound (fun j => y (f^[j] p) - y p) n
    obtain ⟨G₁, hG₁⟩ := h.recur p n
    set K₀ := max (y p) (y (f^[n] p)) - y p with hK₀
    have k0 : 0 ≤ K₀ := by have := le_max_left (y p) (y (f^[n] p)); linarith
    have kn : y (f^[n] p) - y p ≤ K₀ := by have := le_max_right (y p) (y (f^[n] p)); linarith
    refine ⟨G₁ + G, max A A₁, fun s => ?_⟩
    obtain ⟨q, q1, q2, q3⟩ := hG₁ (s - K₀)
    obtain ⟨L, l1, l2, S, hS, hu⟩ := hGA (y q + K₀)
    have hm := q3 i hin
    have hn := q3 n (le_refl _)
    have hA0 := le_max_left 0 A
    have hA1 := le_max_right 0 A
    have htop : L + A < y (f^[i] q) := by linarith
    have htop' : L < y (f^[i] q) := by linarith
    -- the last time before the top at which the orbit was not above `L`
    have hex : ∃ k, k ≤ i ∧ y (f^[i - k] q) ≤ L := ⟨i, le_refl _, by simp; linarith⟩
    set k := Nat.find hex with hk
    obtain ⟨hki, hkL⟩ := Nat.find_spec hex
    have hmin : ∀ j, j < k → L < y (f^[i - j] q) := by
      intro j hj
      have := Nat.find_min hex hj
      rw [not_and, not_le] at this
      exact this (by omega)
    have hk0 : k ≠ 0 := by
      intro h0
      rw [← hk, h0] at hkL
      simp at hkL
      linarith
    rw [← hk] at hki hkL
    set u := f^[i - k + 1] q with hu'
    have habove : ∀ j, j + 1 ≤ k → L < y (f^[j] u) := by
      intro j hj
      have e : f^[j] u = f^[i - (k - 1 - j)] q := by
        rw [hu', ← Function.iterate_add_apply]; congr 2; omega
      rw [e]
      exact hmin _ (by omega)
    have hfu : ∀ j, f^[j] u = f^[j + (i - k + 1)] q := fun j => by rw [hu', ← Function.iterate_add_apply]
    refine ⟨L, by linarith, by linarith, insert u S, ?_, ?_⟩
    · rw [Finset.card_insert_of_notMem, hS]
      intro hmem
      obtain ⟨-, -, n', hn1, hn2⟩ := hu u hmem
      rcases Nat.lt_or_ge n' k with hlt | hge
      · exact absurd hn1 (not_le.mpr (habove n' (by omega)))
      · have := hn2 (k - 1) (by omega)
        rw [hfu, show k - 1 + (i - k + 1) = i by omega] at this
        linarith
    · intro v hv
      rw [Finset.mem_insert] at hv
      rcases hv with rfl | hv
      · refine ⟨habove 0 (by omega), ?_, n - (i - k + 1), ?_, ?_⟩
        · rw [hu', Function.iterate_succ_apply', Equiv.symm_apply_apply]
          exact hkL
        · rw [hfu, show n - (i - k + 1) + (i - k + 1) = n by omega]
          linarith
        · intro j hj
          rw [hfu]
          have h1 := q3 (j + (i - k + 1)) (by omega)
          have h2 := hA₁ (j + (i - k + 1)) (by omega)
          have h3 := le_max_right A A₁
          linarith
      · obtain ⟨a1, a2, n', a3, a4⟩ := hu v hv
        refine ⟨a1, a2, n', a3, fun j hj => ?_⟩
        have h3 := le_max_left A A₁
        linarith [a4 j hj]

/-- Orbits that come back did not go up far. -/
theorem Levels.caps (h : Levels f y) : ∃ B : ℚ, ∀ p n i, i ≤ n → y (f^[i] p) < max (y p) (y (f^[n] p)) + B := by
  by_contra hcon
  push Not at hcon
  obtain ⟨D, hD⟩ := h.step
  obtain ⟨N, hN⟩ := h.count D
  obtain ⟨G, A, hGA⟩ := h.many hcon (N + 1)
  obtain ⟨L, -, -, S, hS, hu⟩ := hGA 0
  have := hN L S (fun p hp => by
    obtain ⟨h1, h2, -⟩ := hu p hp
    have h3 := hD (f.symm p)
    rw [Equiv.apply_symm_apply, abs_le] at h3
    exact ⟨h1.le, by linarith⟩)
  omega

/-- The orbit of `p` goes up: it never gets below `p` by more than `B` and it stays above `p` from the step `n₀` on. -/
def Rises (f : X ≃ X) (y : X → ℚ) (B : ℚ) (n₀ : ℕ) (p : X) : Prop :=
  (∀ i, y p - B < y (f^[i] p)) ∧ ∀ i, n₀ ≤ i → y p < y (f^[i] p)

/-- All orbits go up or down. -/
theorem Levels.dichotomy (h : Levels f y) : ∃ (B : ℚ) (n₀ : ℕ), ∀ p, Rises f y B n₀ p ∨ Rises f (fun p => - y p) B n₀ p := by
  classical
  obtain ⟨B₁, hB₁⟩ := h.caps
  obtain ⟨B₂, hB₂⟩ := h.neg.caps
  set B := max 0 (max B₁ B₂) with hB
  have b0 : 0 ≤ B := le_max_left _ _
  have b1 : B₁ ≤ B := le_trans (le_max_left _ _) (le_max_right _ _)
  have b2 : B₂ ≤ B := le_trans (le_max_right _ _) (le_max_right _ _)
  obtain ⟨N, hN⟩ := h.count (2 * (B + 1))
  have key : ∀ z : X → ℚ, (∀ p n i, i ≤ n → z (f^[i] p) < max (z p) (z (f^[n] p)) + B) →
      (∀ p n i, i ≤ n → - z (f^[i] p) < max (- z p) (- z (f^[n] p)) + B) → ∀ p i, i ≤ N → z p + (B + 1) < z (f^[i] p) →
      Rises f z B N p := by
    intro z c1 c2 p i hi hz
    have hup : ∀ j, N ≤ j → z p < z (f^[j] p) := by
      intro j hj
      have := c1 p j i (by omega)
      by_contra hle
      rw [max_eq_left (not_lt.mp hle)] at this
      linarith
    refine ⟨fun j => ?_, hup⟩
    have h1 := c2 p (max j N) j (le_max_left _ _)
    have h2 := hup (max j N) (le_max_right _ _)
    rw [max_eq_left (by linarith)] at h1
    linarith
  have c1 : ∀ p n i, i ≤ n → y (f^[i] p) < max (y p) (y (f^[n] p)) + B := fun p n i hi => lt_of_lt_of_le (hB₁ p n i hi) (by linarith)
  have c2 : ∀ p n i, i ≤ n → - y (f^[i] p) < max (- y p) (- y (f^[n] p)) + B := fun p n i hi => lt_of_lt_of_le (hB₂ p n i hi) (by linarith)
  refine ⟨B, N, fun p => ?_⟩
  have hinj : ∀ i j, f^[i] p = f^[j] p → i = j := by
    have hlt : ∀ i j, i ≤ j → f^[i] p = f^[j] p → i = j := by
      intro i j hij he
      have e : f^[j] p = f^[i] (f^[j - i] p) := by rw [← Function.iterate_add_apply]; congr 2; omega
      rw [e] at he
      have := h.free p (j - i) ((f.injective.iterate i) he).symm
      omega
    intro i j he
    rcases le_total i j with hij | hij
    · exact hlt i j hij he
    · exact (hlt j i hij he.symm).symm
  have hex : ∃ i ≤ N, ¬ (y p - (B + 1) ≤ y (f^[i] p) ∧ y (f^[i] p) ≤ y p + (B + 1)) := by
    by_contra hall
    push Not at hall
    have := hN (y p - (B + 1)) ((Finset.range (N + 1)).image (fun i => f^[i] p)) (by
      intro q hq
      obtain ⟨i, hi, rfl⟩ := Finset.mem_image.mp hq
      have := hall i (by have := Finset.mem_range.mp hi; omega)
      exact ⟨this.1, by linarith [this.2]⟩)
    rw [Finset.card_image_of_injective _ (fun i j hij => hinj i j hij), Finset.card_range] at this
    omega
  obtain ⟨i, hi, hout⟩ := hex
  rw [not_and_or, not_le, not_le] at hout
  rcases hout with hlow | hhigh
  · exact .inr (key (fun p => - y p) c2 (fun p n i hi => by simpa using c1 p n i hi) p i hi (by linarith))
  · exact .inl (key y c1 c2 p i hi hhigh)

theorem Levels.infinite (h : Levels f y) (p : X) (a b : ℚ) (n : ℕ) (hab : ∀ i, n ≤ i → a ≤ y (f^[i] p) ∧ y (f^[i] p) ≤ b) : False := by
  classical
  obtain ⟨N, hN⟩ := h.count (b - a)
  have := hN a ((Finset.range (N + 1)).image (fun i => f^[i] (f^[n] p))) (by
    intro q hq
    obtain ⟨i, hi, rfl⟩ := Finset.mem_image.mp hq
    have := hab (i + n) (by omega)
    rw [Function.iterate_add_apply] at this
    exact ⟨this.1, by linarith [this.2]⟩)
  rw [Finset.card_image_of_injective, Finset.card_range] at this
  · omega
  · have hlt : ∀ i j, i ≤ j → f^[i] (f^[n] p) = f^[j] (f^[n] p) → i = j := by
      intro i j hij he
      have e : f^[j] (f^[n] p) = f^[i] (f^[j - i] (f^[n] p)) := by
        rw [← Function.iterate_add_apply f i (j - i)]; congr 2; omega
      rw [e] at he
      have := h.free (f^[n] p) (j - i) ((f.injective.iterate i) he).symm
      omega
    intro i j he
    rcases le_total i j with hij | hij
    · exact hlt i j hij he
    · exact (hlt j i hij he.symm).symm

theorem Rises.not_down {B : ℚ} {n₀ : ℕ} {p : X} (h : Rises f y B n₀ p) : ¬ Rises f (fun p => - y p) B n₀ p := by
  intro h'
  have h1 := h.2 n₀ (le_refl _)
  have h2 := h'.2 n₀ (le_refl _)
  simp only at h2
  linarith

/-- All points of an orbit go into the same direction. -/
theorem Levels.up_apply (h : Levels f y) {B : ℚ} {n₀ : ℕ} (hd : ∀ p, Rises f y B n₀ p ∨ Rises f (fun p => - y p) B n₀ p) (p : X) :
    Rises f y B n₀ (f p) ↔ Rises f y B n₀ p := by
  have key : ∀ z : X → ℚ, Levels f z → Rises f z B n₀ p → ¬ Rises f (fun p => - z p) B n₀ (f p) := by
    intro z hz h1 h2
    refine hz.infinite p (z p) (z (f p)) (n₀ + 1) (fun i hi => ⟨(h1.2 i (by omega)).le, ?_⟩)
    have := h2.2 (i - 1) (by omega)
    rw [← Function.iterate_succ_apply, show (i - 1).succ = i by omega] at this
    linarith
  constructor
  · intro h1
    rcases hd p with h2 | h2
    · exact h2
    · refine absurd ?_ (key _ h.neg h2)
      simpa using h1
  · intro h1
    rcases hd (f p) with h2 | h2
    · exact h2
    · exact absurd h2 (key y h h1)

theorem Levels.up_iterate (h : Levels f y) {B : ℚ} {n₀ : ℕ} (hd : ∀ p, Rises f y B n₀ p ∨ Rises f (fun p => - y p) B n₀ p) (p : X) :
    ∀ n, Rises f y B n₀ (f^[n] p) ↔ Rises f y B n₀ p
  | 0 => Iff.rfl
  | n + 1 => by rw [Function.iterate_succ_apply', h.up_apply hd, h.up_iterate hd p n]

/-- The direction is known from what happens in the first `n₀` steps. -/
theorem up_iff {B : ℚ} {n₀ : ℕ} (hd : ∀ p, Rises f y B n₀ p ∨ Rises f (fun p => - y p) B n₀ p) (p : X) :
    Rises f y B n₀ p ↔ y p < y (f^[n₀] p) := by
  constructor
  · intro h; exact h.2 n₀ (le_refl _)
  · intro h
    rcases hd p with h1 | h1
    · exact h1
    · have := h1.2 n₀ (le_refl _)
      simp only at this
      linarith

end Verif
