import Verif.Proofs.Induce

/-!
# Induction for commensurable lengths
-/

namespace Verif

set_option linter.unusedSectionVars false

variable {T : Type} [CommRing T] [LinearOrder T] [IsStrictOrderedRing T]

/-- All lengths are multiples of `u`, the interval `a` has length `k a * u`. -/
def Mult (u : T) (k : Label → ℕ) (A : AIET T) : Prop := ∀ a ∈ A.top, A.len a = (k a : T) * u

theorem Mult.inv {u : T} {k : Label → ℕ} {A : AIET T} (hA : A.Valid) (h : Mult u k A) : Mult u k A.inv :=
  fun a ha => h a (hA.perm.mem_iff.mp ha)

theorem Mult.of_inv {u : T} {k : Label → ℕ} {A : AIET T} (hA : A.Valid) (h : Mult u k A.inv) : Mult u k A :=
  fun a ha => h a (hA.perm.mem_iff.mpr ha)

theorem Mult.agree {u : T} {k : Label → ℕ} {A B : AIET T} (h : Mult u k A) (hB : A.Agree B) : Mult u k B := by
  intro a ha
  rw [← hB.1] at ha
  rw [← hB.2.2 a ha]
  exact h a ha

theorem Mult.pos {u : T} (hu : 0 < u) {k : Label → ℕ} {A : AIET T} (hA : A.Valid) (h : Mult u k A) {a : Label} (ha : a ∈ A.top) :
    0 < k a := by
  have h1 := hA.pos a ha
  rw [h a ha] at h1
  rcases Nat.eq_zero_or_pos (k a) with h0 | h0
  · rw [h0] at h1; simp at h1
  · exact h0

theorem Mult.le_len {u : T} (hu : 0 < u) {k : Label → ℕ} {A : AIET T} (hA : A.Valid) (h : Mult u k A) {a : Label} (ha : a ∈ A.top) :
    u ≤ A.len a := by
  rw [h a ha]
  have : (1 : T) ≤ (k a : T) := by exact_mod_cast h.pos hu hA ha
  nlinarith

theorem RauzyTop.mult_fwd {u : T} (hu : 0 < u) {k : Label → ℕ} {A A' : AIET T} (hA : A.Valid) (h : RauzyTop A A')
    (hk : Mult u k A) : ∃ k', Mult u k' A' := by
  cases h with
  | mk a b t l₁ l₂ len hlt =>
    have hs := hA.split
    have ha := hk a (by simp)
    have hb := hk b (by simp [hs.b_t])
    simp only at ha hb
    have hkk : k b ≤ k a := by
      by_contra hc
      have : (k a : T) ≤ (k b : T) := by exact_mod_cast (by omega : k a ≤ k b)
      have : (k a : T) * u ≤ (k b : T) * u := mul_le_mul_of_nonneg_right this hu.le
      rw [← ha, ← hb] at this
      exact absurd hlt (not_lt.mpr this)
    refine ⟨fun c => if c = a then k a - k b else k c, ?_⟩
    intro c hc
    simp only [shorten]
    split
    · rw [ha, hb, Nat.cast_sub hkk]; ring
    · exact hk c hc

theorem RauzyTop.mult_back {u : T} {k' : Label → ℕ} {A A' : AIET T} (hA : A.Valid) (h : RauzyTop A A')
    (hk : Mult u k' A') : ∃ k, Mult u k A ∧ ∀ d, (∀ a ∈ A.top, d ∣ k a) ↔ ∀ a ∈ A'.top, d ∣ k' a := by
  cases h with
  | mk a b t l₁ l₂ len hlt =>
    have hs := hA.split
    have ha := hk a (by simp)
    have hb := hk b (by simp [hs.b_t])
    simp only [shorten, if_true, if_neg hs.b_a] at ha hb
    refine ⟨fun c => if c = a then k' a + k' b else k' c, ?_, ?_⟩
    · intro c hc
      simp only
      split
      · rename_i hca
        subst hca
        push_cast
        linear_combination ha + hb
      · rename_i hca
        have := hk c hc
        simpa [shorten, hca] using this
    · intro d
      constructor
      · intro hd c hc
        have h1 := hd b (by simp [hs.b_t])
        have h2 := hd a (by simp)
        simp only [if_neg hs.b_a, if_true] at h1 h2
        by_cases hca : c = a
        · subst hca
          exact (Nat.dvd_add_left h1).mp h2
        · have := hd c hc
          simpa [hca] using this
      · intro hd c hc
        simp only
        split
        · exact Nat.dvd_add (hd a (by simp)) (hd b (by simp [hs.b_t]))
        · exact hd c hc

theorem RauzyStep.valid {A A' : AIET T} (hA : A.Valid) (h : RauzyStep A A') : A'.Valid := by
  obtain ⟨δ, _, h⟩ := h.fwd hA
  exact h.valid'

theorem RauzyStep.mult_fwd {u : T} (hu : 0 < u) {k : Label → ℕ} {A A' : AIET T} (hA : A.Valid) (h : RauzyStep A A')
    (hk : Mult u k A) : (∃ k', Mult u k' A') ∧ A'.total + u ≤ A.total := by
  rcases h with h | h
  · obtain ⟨b, hb, hf⟩ := h.fwd hA
    refine ⟨h.mult_fwd hu hA hk, ?_⟩
    have := hk.le_len hu hA hb
    have := hf.total_eq
    linarith
  · obtain ⟨b, hb, hf⟩ := h.fwd hA.inv
    obtain ⟨k', hk'⟩ := h.mult_fwd hu hA.inv (hk.inv hA)
    have hv' : A'.Valid := by have := hf.valid'.inv; rwa [AIET.inv_inv] at this
    refine ⟨⟨k', hk'.of_inv hv'⟩, ?_⟩
    have h1 := (hk.inv hA).le_len hu hA.inv hb
    have h2 := hf.total_eq
    rw [hA.total_inv, hv'.total_inv] at h2
    linarith

theorem RauzyStep.mult_back {u : T} {k' : Label → ℕ} {A A' : AIET T} (hA : A.Valid) (h : RauzyStep A A')
    (hk : Mult u k' A') : ∃ k, Mult u k A ∧ ∀ d, (∀ a ∈ A.top, d ∣ k a) ↔ ∀ a ∈ A'.top, d ∣ k' a := by
  have hv' := h.valid hA
  rcases h with h | h
  · exact h.mult_back hA hk
  · obtain ⟨k, h1, h2⟩ := h.mult_back hA.inv (hk.inv hv')
    refine ⟨k, h1.of_inv hA, ?_⟩
    intro d
    rw [show (∀ a ∈ A.top, d ∣ k a) ↔ ∀ a ∈ A.inv.top, d ∣ k a from
      forall_congr' fun a => by rw [show A.inv.top = A.bottom from rfl, hA.perm.mem_iff],
      show (∀ a ∈ A'.top, d ∣ k' a) ↔ ∀ a ∈ A'.inv.top, d ∣ k' a from
      forall_congr' fun a => by rw [show A'.inv.top = A'.bottom from rfl, hv'.perm.mem_iff]]
    exact h2 d

theorem Steps.mult_fwd {u : T} (hu : 0 < u) {k : Label → ℕ} {A A' : AIET T} (hA : A.Valid) (h : Steps A A')
    (hk : Mult u k A) : ∃ k', Mult u k' A' := by
  induction h with
  | refl => exact ⟨k, hk⟩
  | tail h1 h2 ih =>
    obtain ⟨k', hk'⟩ := ih
    exact (h2.mult_fwd hu (Steps.valid hA h1) hk').1

theorem Steps.mult_fwd_pos {u : T} (hu : 0 < u) {k : Label → ℕ} {A A' : AIET T} (hA : A.Valid)
    (h : Relation.TransGen RauzyStep A A') (hk : Mult u k A) : A'.total + u ≤ A.total := by
  induction h with
  | single h => exact (h.mult_fwd hu hA hk).2
  | tail h1 h2 ih =>
    obtain ⟨k', hk'⟩ := Steps.mult_fwd hu hA h1.to_reflTransGen hk
    have := (h2.mult_fwd hu (Steps.valid hA h1.to_reflTransGen) hk').2
    linarith

theorem Steps.mult_back {u : T} {k' : Label → ℕ} {A A' : AIET T} (hA : A.Valid) (h : Steps A A')
    (hk : Mult u k' A') : ∃ k, Mult u k A ∧ ∀ d, (∀ a ∈ A.top, d ∣ k a) ↔ ∀ a ∈ A'.top, d ∣ k' a := by
  induction h using Relation.ReflTransGen.head_induction_on with
  | refl => exact ⟨k', hk, fun _ => Iff.rfl⟩
  | head h1 _ ih =>
    obtain ⟨k, q1, q2⟩ := ih (h1.valid hA)
    obtain ⟨k₀, q3, q4⟩ := h1.mult_back hA q1
    exact ⟨k₀, q3, fun d => (q4 d).trans (q2 d)⟩

/-- The greatest common divisor of the numbers of a list of labels. -/
def gcdOf (k : Label → ℕ) (l : List Label) : ℕ := l.foldr (fun a g => Nat.gcd (k a) g) 0

theorem dvd_gcdOf (k : Label → ℕ) (d : ℕ) : ∀ l : List Label, d ∣ gcdOf k l ↔ ∀ a ∈ l, d ∣ k a
  | [] => by simp [gcdOf]
  | a :: l => by
    have : gcdOf k (a :: l) = Nat.gcd (k a) (gcdOf k l) := rfl
    rw [this, Nat.dvd_gcd_iff, dvd_gcdOf k d l]
    simp

theorem gcdOf_mul (k : Label → ℕ) (m : ℕ) : ∀ l : List Label, gcdOf (fun a => m * k a) l = m * gcdOf k l
  | [] => rfl
  | a :: l => by
    have : gcdOf (fun a => m * k a) (a :: l) = Nat.gcd (m * k a) (gcdOf (fun a => m * k a) l) := rfl
    rw [this, gcdOf_mul k m l, Nat.gcd_mul_left]
    rfl

theorem gcdOf_congr {k k' : Label → ℕ} : ∀ {l : List Label}, (∀ a ∈ l, k a = k' a) → gcdOf k l = gcdOf k' l
  | [], _ => rfl
  | a :: l, h => by
    have h1 := gcdOf_congr (l := l) (fun b hb => h b (List.mem_cons_of_mem _ hb))
    show Nat.gcd (k a) (gcdOf k l) = Nat.gcd (k' a) (gcdOf k' l)
    rw [h1, h a (by simp)]

/-- For commensurable lengths, no IET is similar to one that it induces. -/
theorem not_similar_of_mult {u : T} (hu : 0 < u) {k' : Label → ℕ} {A A' : AIET T} (hA : A.Valid)
    (h : Relation.TransGen RauzyStep A A') (hk : Mult u k' A')
    (hs : ∀ a ∈ A.top, ∀ b ∈ A.top, A.len a * A'.len b = A.len b * A'.len a) : False := by
  obtain ⟨k, h1, h2⟩ := Steps.mult_back hA h.to_reflTransGen hk
  have hperm := Steps.top_perm h.to_reflTransGen
  have hv' := Steps.valid hA h.to_reflTransGen
  have hmem : ∀ a, a ∈ A'.top ↔ a ∈ A.top := fun a => hperm.mem_iff
  have key : ∀ a ∈ A.top, ∀ b ∈ A.top, k a * k' b = k b * k' a := by
    intro a ha b hb
    have := hs a ha b hb
    rw [h1 a ha, h1 b hb, hk a ((hmem a).mpr ha), hk b ((hmem b).mpr hb)] at this
    have h3 : ((k a * k' b : ℕ) : T) * (u * u) = ((k b * k' a : ℕ) : T) * (u * u) := by
      push_cast; linear_combination this
    have h4 := mul_right_cancel₀ (mul_ne_zero hu.ne' hu.ne') h3
    exact_mod_cast h4
  have hg : gcdOf k A.top = gcdOf k' A.top := by
    apply Nat.dvd_antisymm
    · rw [dvd_gcdOf]
      intro a ha
      exact (h2 _).mp ((dvd_gcdOf k _ _).mp dvd_rfl) a ((hmem a).mpr ha)
    · rw [dvd_gcdOf]
      apply (h2 _).mpr
      intro a ha
      exact (dvd_gcdOf k' _ _).mp dvd_rfl a ((hmem a).mp ha)
  have hg0 : gcdOf k A.top ≠ 0 := by
    intro h0
    obtain ⟨a, ha⟩ := List.exists_mem_of_ne_nil _ hA.ne_nil
    have := (dvd_gcdOf k 0 A.top).mp (by rw [h0]) a ha
    have := h1.pos hu hA ha
    omega
  have heq : ∀ a ∈ A.top, k a = k' a := by
    intro a ha
    have e1 : k a * gcdOf k' A.top = k' a * gcdOf k A.top := by
      rw [← gcdOf_mul, ← gcdOf_mul]
      apply gcdOf_congr
      intro b hb
      rw [key a ha b hb, Nat.mul_comm]
    rw [← hg] at e1
    exact Nat.eq_of_mul_eq_mul_right (Nat.pos_of_ne_zero hg0) e1
  have htot : A'.total = A.total := by
    unfold AIET.total
    rw [sumLen_perm A'.len hperm]
    apply sumLen_congr
    intro a ha
    rw [h1 a ha, hk a ((hmem a).mpr ha), heq a ha]
  have := Steps.mult_fwd_pos hu hA h h1
  linarith

variable {σ ε : Type} {O : LengthsOps σ T} {d : ℕ} {c : T →+ (Fin d → ℚ)}

theorem LawfulLengths.LoopFound.false {H : LawfulLengths O c ε} {E : IET T} {s : σ} (hE : (H.abs E s).Valid) (h : H.LoopFound E s)
    {u : T} (hu : 0 < u) {k : Label → ℕ} (hk : Mult u k (H.abs E s)) : False := by
  obtain ⟨E₀, E₁, h1, h2, h3, h4, _⟩ := h
  have hv1 := Steps.valid h1 h2.to_reflTransGen
  rcases h3 with h3 | h3
  · refine not_similar_of_mult hu h1 h2 (hk.agree h3.symm) ?_
    have hp := Steps.top_perm h2.to_reflTransGen
    intro a ha b hb
    rw [h3.2.2 a (hp.mem_iff.mpr ha), h3.2.2 b (hp.mem_iff.mpr hb)]
    exact h4.similar a ha b hb
  · refine not_similar_of_mult hu h1 h2 ((hk.inv hE).agree h3.symm) ?_
    have hp := Steps.top_perm h2.to_reflTransGen
    intro a ha b hb
    rw [h3.2.2 a (hp.mem_iff.mpr ha), h3.2.2 b (hp.mem_iff.mpr hb)]
    exact h4.similar a ha b hb

theorem iter_total {u : T} (hu : 0 < u) : ∀ (n : ℕ) {A A' : AIET T} {k : Label → ℕ}, A.Valid → Mult u k A →
    Iter (Relation.TransGen RauzyStep) n A A' → A'.total + n * u ≤ A.total
  | 0, A, A', k, _, _, h => by cases h; simp
  | n + 1, A, A', k, hA, hk, ⟨B, h1, h2⟩ => by
    have h3 := Steps.mult_fwd_pos hu hA h1 hk
    obtain ⟨k', hk'⟩ := Steps.mult_fwd hu hA h1.to_reflTransGen hk
    have h4 := iter_total hu n (Steps.valid hA h1.to_reflTransGen) hk' h2
    push_cast
    linarith

end Verif
