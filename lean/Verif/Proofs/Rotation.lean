import Verif.Props.Boshernitzan
import Verif.Proofs.Basis

/-!
# Exchanges of two intervals
-/

namespace Verif

set_option linter.unusedSectionVars false

variable {σ T ε P : Type} [CommRing T] [LinearOrder T] [IsStrictOrderedRing T] [CommRing P] [LinearOrder P]
  [IsStrictOrderedRing P] {O : LengthsOps σ T} {d : ℕ} {c : T →+ (Fin d → ℚ)}

/-- The orbit of a point under an exchange of two intervals. -/
theorem rotation_orbit {a b : Label} (hab : a ≠ b) {len : Label → P} (hx0 : 0 < len a) (hy0 : 0 < len b) {x : P} (h0 : 0 ≤ x)
    (h1 : x < len a + len b) (k : ℕ) :
    ∃ (y : P) (w : ℤ), Relation.TransGen (AIET.mk [a, b] [b, a] len).Maps x y ∧ 0 ≤ y ∧ y < len a + len b ∧
      y = x + (k + 1) * len b - w * (len a + len b) := by
  have step : ∀ x : P, 0 ≤ x → x < len a + len b → ∃ (y : P) (w : ℤ), (AIET.mk [a, b] [b, a] len).Maps x y ∧ 0 ≤ y ∧
      y < len a + len b ∧ y = x + len b - w * (len a + len b) := by
    intro x h0 h1
    rcases lt_or_ge x (len a) with h | h
    · refine ⟨x + len b, 0, ⟨a, by simp, ?_⟩, by linarith, by linarith, by simp⟩
      simp [off, hab.symm, h0, h]
    · refine ⟨x - len a, 1, ⟨b, by simp, ?_⟩, by linarith, by linarith, by push_cast; ring⟩
      simp [off, hab, h, h1]
  induction k with
  | zero =>
    obtain ⟨y, w, s1, s2, s3, s4⟩ := step x h0 h1
    exact ⟨y, w, .single s1, s2, s3, by rw [s4]; push_cast; ring⟩
  | succ k ih =>
    obtain ⟨y, w, s1, s2, s3, s4⟩ := ih
    obtain ⟨z, v, t1, t2, t3, t4⟩ := step y s2 s3
    exact ⟨z, w + v, s1.tail t1, t2, t3, by rw [t4, s4]; push_cast; ring⟩

/-- All points are periodic if the lengths are commensurable. -/
theorem rotation_periodic {a b : Label} (hab : a ≠ b) {len : Label → P} (hx0 : 0 < len a) (hy0 : 0 < len b) {n m : ℕ} (hn : n ≠ 0)
    (h : (n : P) * len b = m * len a) {x : P} (h0 : 0 ≤ x) (h1 : x < len a + len b) :
    Periodic (AIET.mk [a, b] [b, a] len).Maps x := by
  obtain ⟨y, w, s1, s2, s3, s4⟩ := rotation_orbit hab hx0 hy0 h0 h1 (n + m - 1)
  have hk : (((n + m - 1 : ℕ) : P) + 1) = n + m := by
    have : n + m - 1 + 1 = n + m := by omega
    exact_mod_cast congrArg (Nat.cast (R := P)) this
  have ht : 0 < len a + len b := by linarith
  have e : y - x = ((m : ℤ) - w : ℤ) * (len a + len b) := by
    rw [s4, hk]; push_cast; linear_combination h
  have hz : (m : ℤ) - w = 0 := by
    rcases lt_trichotomy ((m : ℤ) - w) 0 with hz | hz | hz
    · have : (((m : ℤ) - w : ℤ) : P) ≤ -1 := by exact_mod_cast Int.le_sub_one_of_lt hz
      nlinarith
    · exact hz
    · have : (1 : P) ≤ (((m : ℤ) - w : ℤ) : P) := by exact_mod_cast hz
      nlinarith
  rw [hz] at e
  have : y = x := by simpa [sub_eq_zero] using e
  rw [this] at s1
  exact s1

/-- The relation between the translations of an exchange of two intervals. -/
theorem rotation_relation {a b : Label} (hab : a ≠ b) {len : Label → T} (hx0 : 0 < len a) (hy0 : 0 < len b) {n : Label → ℕ}
    (hn : ∃ l ∈ [a, b], n l ≠ 0) (h : (([a, b] : List Label).map (fun l => (n l : T) * (AIET.mk [a, b] [b, a] len).transl l)).sum = 0) :
    n a ≠ 0 ∧ (n a : T) * len b = n b * len a := by
  have e : (n a : T) * len b = n b * len a := by
    simp [AIET.transl, off, hab, hab.symm] at h
    linear_combination h
  refine ⟨fun h0 => ?_, e⟩
  rw [h0] at e
  have : n b = 0 := by
    have : (n b : T) = 0 := by
      rcases mul_eq_zero.mp (show (n b : T) * len a = 0 by rw [← e]; simp) with h | h
      · exact h
      · exact absurd h hx0.ne'
    exact_mod_cast this
  simp [h0, this] at hn

theorem rotation_saf {a b : Label} (hab : a ≠ b) {len : Label → T} {n m : ℕ} (hn : n ≠ 0) (h : (n : T) * len b = m * len a) :
    ∀ x ∈ safList c (AIET.mk [a, b] [b, a] len), x = 0 := by
  rw [safList_zero_iff]
  intro i j _
  have hc : ∀ k : Fin d, (n : ℚ) * c (len b) k = m * c (len a) k := by
    intro k
    have := congrFun (congrArg c (show n • len b = m • len a by simpa [nsmul_eq_mul] using h)) k
    rw [map_nsmul, map_nsmul] at this
    simpa [nsmul_eq_mul] using this
  have hi := hc i
  have hj := hc j
  have hn' : (n : ℚ) ≠ 0 := by exact_mod_cast hn
  simp [AIET.saf, AIET.transl, off, hab, hab.symm]
  apply mul_left_cancel₀ hn'
  linear_combination 2 * c (len a) i * hj - 2 * c (len a) j * hi

end Verif
