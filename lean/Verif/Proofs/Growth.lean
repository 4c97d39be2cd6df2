import Verif.Proofs.Positive

/-!
# Proofs about C99: visits grow without bounds
-/

namespace Verif

set_option linter.unusedSectionVars false

variable {T : Type} [CommRing T] [LinearOrder T] [IsStrictOrderedRing T]

theorem RauzyTop.two {A B : AIET T} (h : RauzyTop A B) : ∃ x ∈ A.top, ∃ y ∈ A.bottom, x ≠ y := by
  cases h with
  | mk t b top l₁ l₂ len h => exact ⟨t, by simp, b, by simp, fun e => by subst e; exact lt_irrefl _ h⟩

theorem RauzyStep.two {A B : AIET T} (hA : A.Valid) (h : RauzyStep A B) : ∃ x ∈ A.top, ∃ y ∈ A.top, x ≠ y := by
  rcases h with h | h
  · obtain ⟨x, hx, y, hy, hxy⟩ := h.two
    exact ⟨x, hx, y, hA.perm.mem_iff.mp hy, hxy⟩
  · obtain ⟨x, hx, y, hy, hxy⟩ := h.two
    exact ⟨x, hA.perm.mem_iff.mp hx, y, hy, hxy⟩

theorem Round.two {A B : AIET T} (hA : A.Valid) (h : Round A B) : ∃ x ∈ A.top, ∃ y ∈ A.top, x ≠ y := by
  obtain ⟨C, hC, -⟩ := Relation.TransGen.head'_iff.mp (h.transGen hA)
  exact hC.two hA

theorem Iter.split {X : Type} {R : X → X → Prop} {m : ℕ} {z : X} : ∀ {n : ℕ} {x : X}, Iter R (n + m) x z → ∃ y, Iter R n x y ∧ Iter R m y z
  | 0, x, h => ⟨x, rfl, by rwa [Nat.zero_add] at h⟩
  | n + 1, x, h => by
    rw [Nat.add_right_comm] at h
    obtain ⟨y, h1, h2⟩ := h
    obtain ⟨u, h3, h4⟩ := Iter.split h2
    exact ⟨u, ⟨y, h1, h3⟩, h4⟩

theorem count_flatMap_ge {v : Label → List Label} {K : ℕ} {x : Label} : ∀ (l : List Label), (∀ z ∈ l, K ≤ (v z).count x) → l.length * K ≤ (l.flatMap v).count x
  | [], _ => by simp
  | z :: l, h => by
    have h1 := h z (by simp)
    have h2 := count_flatMap_ge l (fun y hy => h y (by simp [hy]))
    simp only [List.length_cons, List.flatMap_cons, List.count_append]
    rw [Nat.add_mul, Nat.one_mul]
    omega

/-- For each `K` there is a number of rounds after which each interval visits each of the original intervals at least `K` times. -/
theorem rounds_growth [Archimedean T] {A : AIET T} (hA : A.Valid) (hi : A.Irreducible) (K : ℕ) :
    ∃ N, ∀ n, N ≤ n → ∀ B, Iter Round n A B → ∃ δ v, Unwinds A δ B v ∧ ∀ x ∈ A.top, ∀ y ∈ A.top, K ≤ (v y).count x := by
  induction K with
  | zero =>
    obtain ⟨N, hN⟩ := rounds_positive hA hi
    refine ⟨N, fun n hn B hB => ?_⟩
    obtain ⟨δ, v, h1, -⟩ := hN n hn B hB
    exact ⟨δ, v, h1, fun _ _ _ _ => Nat.zero_le _⟩
  | succ K ih =>
    obtain ⟨N₀, hN₀⟩ := rounds_positive hA hi
    obtain ⟨N, hN⟩ := ih
    rcases Nat.eq_zero_or_pos K with rfl | hK
    · refine ⟨N₀, fun n hn B hB => ?_⟩
      obtain ⟨δ, v, h1, h2⟩ := hN₀ n hn B hB
      exact ⟨δ, v, h1, fun x hx y hy => List.count_pos_iff.mpr (h2 x hx y hy)⟩
    by_cases hex : ∃ B, Iter Round N A B
    · obtain ⟨B, hB⟩ := hex
      have hBv := rounds_valid hA hB
      have hs := rounds_steps hA hB
      obtain ⟨δ, v, h1, h2⟩ := hN N le_rfl B hB
      obtain ⟨M, hM⟩ := rounds_positive hBv (hs.irreducible hA hi)
      refine ⟨N + (M + 1), fun n hn C hC => ?_⟩
      obtain ⟨k, rfl⟩ : ∃ k, n = N + (k + 1) := ⟨n - N - 1, by omega⟩
      obtain ⟨B', hB', hC'⟩ := Iter.split hC
      obtain rfl := rounds_unique hA hB hB'
      have hCv := rounds_valid hBv hC'
      obtain ⟨δ', u, h3, h4⟩ := hM (k + 1) (by omega) C hC'
      refine ⟨_, _, h1.trans hBv hCv h3, fun x hx y hy => ?_⟩
      have hy' : y ∈ B.top := h1.labels.mem_iff.mpr hy
      simp only [if_pos hy']
      have h5 : 2 ≤ (u y).length := by
        obtain ⟨D, hD, -⟩ := hC'
        obtain ⟨a, ha, b, hb, hab⟩ := hD.two hBv
        have hsub : [a, b].Subperm (u y) := List.subperm_of_subset (by simp [hab]) (by
          intro z hz
          simp only [List.mem_cons, List.not_mem_nil, or_false] at hz
          rcases hz with rfl | rfl
          · exact h4 _ ha y hy'
          · exact h4 _ hb y hy')
        exact hsub.length_le
      have h6 : ∀ z ∈ u y, K ≤ (v z).count x := by
        intro z hz
        obtain ⟨p, q, hpq⟩ := hCv.exists_mapsBy (h3.labels.mem_iff.mpr hy')
        have := (h3.towers.excursion (δ', C) (by simp) y (h3.labels.mem_iff.mpr hy') p q hpq).path.mem z hz
        exact h2 x hx z (h1.labels.mem_iff.mp this)
      have h7 := count_flatMap_ge (u y) h6
      have h8 : 2 * K ≤ (u y).length * K := Nat.mul_le_mul_right K h5
      omega
    · refine ⟨N, fun n hn B hB => ?_⟩
      obtain ⟨k, rfl⟩ := Nat.exists_eq_add_of_le hn
      exact absurd hB.shorter hex

end Verif
