import Verif.Proofs.Levels
import Verif.Proofs.Keane
import Mathlib.Data.Set.Finite.Basic
import Mathlib.Data.Set.Finite.Lattice
import Mathlib.Algebra.Group.Subgroup.Basic
import Mathlib.Algebra.Order.Group.Abs
import Mathlib.Algebra.Order.Ring.Abs

/-!
# The points of a lattice under an interval exchange transformation
-/

namespace Verif

set_option linter.unusedSectionVars false

variable {T : Type} [CommRing T] [LinearOrder T] [IsStrictOrderedRing T]

/-- The group `Λ`, with the height `y`, is a lattice in the plane: there are only finitely many points in a rectangle, but there are points in every
vertical strip. -/
structure IsLattice (Λ : AddSubgroup T) (y : T →+ ℚ) : Prop where
  finite : ∀ (X : T) (h : ℚ), {v : T | v ∈ Λ ∧ |v| ≤ X ∧ |y v| ≤ h}.Finite
  small : ∀ η : T, 0 < η → ∃ v ∈ Λ, 0 < v ∧ v < η

theorem exists_gap {S : Set T} (hS : S.Finite) : ∃ μ : T, 0 < μ ∧ ∀ v ∈ S, v ≠ 0 → μ ≤ |v| := by
  induction S, hS using Set.Finite.induction_on with
  | empty => exact ⟨1, one_pos, by simp⟩
  | @insert a S _ _ ih =>
    obtain ⟨μ, h1, h2⟩ := ih
    by_cases ha : a = 0
    · refine ⟨μ, h1, fun v hv hv0 => ?_⟩
      rcases Set.mem_insert_iff.mp hv with rfl | hv
      · exact absurd ha hv0
      · exact h2 v hv hv0
    · refine ⟨min μ |a|, lt_min h1 (abs_pos.mpr ha), fun v hv hv0 => ?_⟩
      rcases Set.mem_insert_iff.mp hv with rfl | hv
      · exact min_le_right _ _
      · exact le_trans (min_le_left _ _) (h2 v hv hv0)

variable {Λ : AddSubgroup T} {y : T →+ ℚ}

/-- Short vectors are high. -/
theorem IsLattice.high (h : IsLattice Λ y) (B : ℚ) : ∃ μ : T, 0 < μ ∧ ∀ v ∈ Λ, v ≠ 0 → |v| < μ → B < |y v| := by
  obtain ⟨μ, h1, h2⟩ := exists_gap (h.finite 1 B)
  refine ⟨min μ 1, lt_min h1 one_pos, fun v hv hv0 hlt => ?_⟩
  by_contra hle
  have h3 := h2 v ⟨hv, le_trans hlt.le (min_le_right _ _), not_lt.mp hle⟩ hv0
  exact absurd (lt_of_lt_of_le hlt (min_le_left _ _)) (not_lt.mpr h3)

theorem climb_up {P : T → Prop} {y : T → ℚ} {δ G : ℚ} (hδ : 0 < δ) (hup : ∀ v, P v → ∃ v', P v' ∧ y v + δ ≤ y v' ∧ y v' ≤ y v + G) {v : T} (hv : P v)
    {s : ℚ} (hs : y v ≤ s) : ∃ v', P v' ∧ s ≤ y v' ∧ y v' ≤ s + G := by
  have key : ∀ n : ℕ, ∀ v, P v → y v ≤ s → s ≤ y v + n * δ → ∃ v', P v' ∧ s ≤ y v' ∧ y v' ≤ s + G := by
    have hG : ∀ v, P v → 0 ≤ G := fun v hv => by
      obtain ⟨v', -, h1, h2⟩ := hup v hv
      linarith
    intro n
    induction n with
    | zero => intro v hv h1 h2; exact ⟨v, hv, by simpa using h2, by linarith [hG v hv]⟩
    | succ n ih =>
      intro v hv h1 h2
      obtain ⟨v', hv', h3, h4⟩ := hup v hv
      rcases le_total (y v') s with h5 | h5
      · refine ih v' hv' h5 ?_
        push_cast at h2
        linarith
      · exact ⟨v', hv', h5, by linarith⟩
  obtain ⟨n, hn⟩ := exists_nat_ge ((s - y v) / δ)
  refine key n v hv hs ?_
  rw [div_le_iff₀ hδ] at hn
  linarith

/-- There are points at all heights in a strip. -/
theorem IsLattice.climb (h : IsLattice Λ y) {β : T} (hβ : 0 < β) : ∃ G : ℚ, ∀ s : ℚ, ∃ v ∈ Λ, 0 ≤ v ∧ v < β ∧ s ≤ y v ∧ y v ≤ s + G := by
  obtain ⟨v₁, m1, p1, l1⟩ := h.small β hβ
  obtain ⟨μ, hμ, hhigh⟩ := h.high |y v₁|
  obtain ⟨v₂, m2, p2, l2⟩ := h.small (min μ v₁) (lt_min hμ p1)
  have l3 : v₂ < v₁ := lt_of_lt_of_le l2 (min_le_right _ _)
  have hy := hhigh v₂ m2 p2.ne' (by rw [abs_of_pos p2]; exact lt_of_lt_of_le l2 (min_le_left _ _))
  set P : T → Prop := fun v => v ∈ Λ ∧ 0 ≤ v ∧ v < v₁ with hP
  -- adding or subtracting the second vector
  have hadd : ∀ v, P v → ∃ v', P v' ∧ (y v' = y v + y v₂ ∨ y v' = y v + (y v₂ - y v₁)) := by
    rintro v ⟨a1, a2, a3⟩
    rcases lt_or_ge (v + v₂) v₁ with hlt | hge
    · exact ⟨v + v₂, ⟨Λ.add_mem a1 m2, by linarith, hlt⟩, .inl (map_add y v v₂)⟩
    · exact ⟨v + (v₂ - v₁), ⟨Λ.add_mem a1 (Λ.sub_mem m2 m1), by linarith, by linarith⟩, .inr (by rw [map_add, map_sub])⟩
  have hsub : ∀ v, P v → ∃ v', P v' ∧ (y v' = y v - y v₂ ∨ y v' = y v - (y v₂ - y v₁)) := by
    rintro v ⟨a1, a2, a3⟩
    rcases lt_or_ge v v₂ with hlt | hge
    · exact ⟨v - (v₂ - v₁), ⟨Λ.sub_mem a1 (Λ.sub_mem m2 m1), by linarith, by linarith⟩, .inr (by rw [map_sub, map_sub])⟩
    · exact ⟨v - v₂, ⟨Λ.sub_mem a1 m2, by linarith, by linarith⟩, .inl (map_sub y v v₂)⟩
  set δ := |y v₂| - |y v₁| with hδ
  set G := |y v₂| + |y v₁| with hG
  have hδ0 : 0 < δ := by linarith
  have b1 := abs_nonneg (y v₁)
  have b2 := le_abs_self (y v₁)
  have b3 := neg_abs_le (y v₁)
  have hboth : (∀ v, P v → ∃ v', P v' ∧ y v + δ ≤ y v' ∧ y v' ≤ y v + G) ∧
      (∀ v, P v → ∃ v', P v' ∧ - y v + δ ≤ - y v' ∧ - y v' ≤ - y v + G) := by
    rcases le_total 0 (y v₂) with h0 | h0
    · have e := abs_of_nonneg h0
      constructor
      · intro v hv
        obtain ⟨v', hv', e' | e'⟩ := hadd v hv
        · exact ⟨v', hv', by linarith, by linarith⟩
        · exact ⟨v', hv', by linarith, by linarith⟩
      · intro v hv
        obtain ⟨v', hv', e' | e'⟩ := hsub v hv
        · exact ⟨v', hv', by linarith, by linarith⟩
        · exact ⟨v', hv', by linarith, by linarith⟩
    · have e := abs_of_nonpos h0
      constructor
      · intro v hv
        obtain ⟨v', hv', e' | e'⟩ := hsub v hv
        · exact ⟨v', hv', by linarith, by linarith⟩
        · exact ⟨v', hv', by linarith, by linarith⟩
      · intro v hv
        obtain ⟨v', hv', e' | e'⟩ := hadd v hv
        · exact ⟨v', hv', by linarith, by linarith⟩
        · exact ⟨v', hv', by linarith, by linarith⟩
  have hz : P 0 := ⟨Λ.zero_mem, le_refl _, p1⟩
  have hG0 : 0 ≤ G := by linarith
  refine ⟨G, fun s => ?_⟩
  rcases le_total 0 s with hs | hs
  · obtain ⟨v, ⟨a1, a2, a3⟩, a4, a5⟩ := climb_up (y := y) hδ0 hboth.1 hz (s := s) (by simpa using hs)
    exact ⟨v, a1, a2, by linarith, a4, a5⟩
  · rcases le_total 0 (s + G) with hs' | hs'
    · exact ⟨0, Λ.zero_mem, le_refl _, hβ, by simpa using hs, by simpa using hs'⟩
    · obtain ⟨v, ⟨a1, a2, a3⟩, a4, a5⟩ := climb_up (y := fun v => - y v) hδ0 hboth.2 hz (s := -(s + G)) (by simp only [map_zero]; linarith)
      exact ⟨v, a1, a2, by linarith, by linarith, by linarith⟩

/-! ### The action on the points of the lattice -/

theorem sumLen_mem {len : Label → T} : ∀ {s : List Label}, (∀ a ∈ s, len a ∈ Λ) → sumLen len s ∈ Λ
  | [], _ => Λ.zero_mem
  | a :: s, h => Λ.add_mem (h a (by simp)) (sumLen_mem (fun b hb => h b (List.mem_cons_of_mem _ hb)))

theorem off_mem {len : Label → T} : ∀ {s : List Label} (a : Label), (∀ a ∈ s, len a ∈ Λ) → off len s a ∈ Λ
  | [], _, _ => Λ.zero_mem
  | b :: s, a, h => by
    unfold off
    split
    · exact Λ.zero_mem
    · exact Λ.add_mem (h b (by simp)) (off_mem a (fun c hc => h c (List.mem_cons_of_mem _ hc)))

/-- The points of the lattice in the interval of an IET. -/
def LatticePoint (Λ : AddSubgroup T) (t : T) : Type := {x : T // 0 ≤ x ∧ x < t ∧ x ∈ Λ}

variable {t : T}

/-- The map of the points of the lattice given by an IET. -/
def Acts (A : AIET T) (f : LatticePoint Λ t ≃ LatticePoint Λ t) : Prop := ∀ p, A.Maps p.1 (f p).1

theorem exists_acts {A : AIET T} (hA : A.Valid) (hΛ : ∀ a ∈ A.top, A.len a ∈ Λ) : ∃ f : LatticePoint Λ A.total ≃ LatticePoint Λ A.total, Acts A f := by
  have hΛ' : ∀ a ∈ A.bottom, A.len a ∈ Λ := fun a ha => hΛ a (hA.perm.mem_iff.mp ha)
  have key : ∀ {B : AIET T}, B.Valid → B.total = A.total → (∀ a ∈ B.top, B.len a ∈ Λ) → (∀ a ∈ B.bottom, B.len a ∈ Λ) →
      ∀ p : LatticePoint Λ A.total, ∃ q : LatticePoint Λ A.total, B.Maps p.1 q.1 := by
    intro B hB ht h1 h2 p
    obtain ⟨z, hz⟩ := hB.maps_total p.2.1 (by rw [ht]; exact p.2.2.1)
    have hr := hB.maps_range hz
    rw [ht] at hr
    refine ⟨⟨z, hr.1, hr.2, ?_⟩, hz⟩
    obtain ⟨a, -, -, -, rfl⟩ := hz
    exact Λ.add_mem (Λ.sub_mem p.2.2.2 (off_mem a h1)) (off_mem a h2)
  choose f hf using key hA rfl hΛ hΛ'
  choose g hg using key hA.inv hA.total_inv hΛ' hΛ
  refine ⟨⟨f, g, fun p => ?_, fun p => ?_⟩, hf⟩
  · apply Subtype.ext
    exact hA.inv.maps_unique (hg (f p)) (hA.maps_inv.mpr (hf p))
  · apply Subtype.ext
    exact hA.maps_unique (hf (g p)) (hA.maps_inv.mp (hg p))

variable {A : AIET T} {f : LatticePoint Λ t ≃ LatticePoint Λ t}

theorem Acts.symm (hA : A.Valid) (h : Acts A f) : Acts A.inv f.symm := by
  intro p
  have := h (f.symm p)
  rw [Equiv.apply_symm_apply] at this
  exact hA.maps_inv.mpr this

theorem Acts.iter (h : Acts A f) (p : LatticePoint Λ t) : ∀ n, Iter A.Maps n p.1 (f^[n] p).1
  | 0 => rfl
  | n + 1 => by
    rw [Function.iterate_succ_apply']
    exact (h.iter p n).add (n := 1) ⟨_, h _, rfl⟩

theorem Acts.iter_eq (hA : A.Valid) (h : Acts A f) : ∀ {n : ℕ} {p : LatticePoint Λ t} {x : T}, Iter A.Maps n p.1 x → x = (f^[n] p).1
  | 0, p, x, hx => (show p.1 = x from hx).symm
  | n + 1, p, x, ⟨z, hz, hx⟩ => by
    have : z = (f p).1 := hA.maps_unique hz (h p)
    subst this
    have := Acts.iter_eq hA h (n := n) (p := f p) hx
    exact this

/-- Points that are close and to the right go the same way. -/
theorem Acts.window (h : Acts A f) (hA : A.Valid) (p : LatticePoint Λ t) : ∀ n : ℕ, ∃ β, 0 < β ∧ p.1 + β ≤ t ∧
    ∀ q : LatticePoint Λ t, p.1 ≤ q.1 → q.1 < p.1 + β → ∀ j ≤ n, (f^[j] q).1 - q.1 = (f^[j] p).1 - p.1
  | 0 => ⟨t - p.1, by linarith [p.2.2.1], by linarith, fun q _ _ j hj => by rw [Nat.le_zero.mp hj]; simp⟩
  | n + 1 => by
    obtain ⟨β, h1, h2, h3⟩ := h.window hA p n
    obtain ⟨a, ha, a1, a2, a3⟩ := h (f^[n] p)
    refine ⟨min β (off A.len A.top a + A.len a - (f^[n] p).1), lt_min h1 (by linarith), by linarith [min_le_left β (off A.len A.top a + A.len a - (f^[n] p).1)], ?_⟩
    intro q q1 q2 j hj
    have q3 : q.1 < p.1 + β := lt_of_lt_of_le q2 (by linarith [min_le_left β (off A.len A.top a + A.len a - (f^[n] p).1)])
    rcases Nat.lt_or_ge n j with hlt | hge
    · obtain rfl : j = n + 1 := by omega
      have h4 := h3 q q1 q3 n (le_refl _)
      have h5 : q.1 < p.1 + (off A.len A.top a + A.len a - (f^[n] p).1) := lt_of_lt_of_le q2 (by linarith [min_le_right β (off A.len A.top a + A.len a - (f^[n] p).1)])
      have h6 : A.Maps (f^[n] q).1 ((f^[n] q).1 - off A.len A.top a + off A.len A.bottom a) := ⟨a, ha, by linarith, by linarith, rfl⟩
      have h7 := hA.maps_unique (h (f^[n] q)) h6
      rw [Function.iterate_succ_apply', Function.iterate_succ_apply', h7, a3]
      linarith
    · exact h3 q q1 q3 j hge

/-- Points that are close and to the left go the same way, unless the orbit hits the left end point of an interval. -/
theorem Acts.window_left (h : Acts A f) (hA : A.Valid) (p : LatticePoint Λ t) : ∀ n : ℕ, (∀ j < n, ∀ a ∈ A.top, (f^[j] p).1 ≠ off A.len A.top a) →
    ∃ η, 0 < η ∧ ∀ q : LatticePoint Λ t, p.1 - η < q.1 → q.1 ≤ p.1 → ∀ j ≤ n, (f^[j] q).1 - q.1 = (f^[j] p).1 - p.1
  | 0, _ => ⟨1, one_pos, fun q _ _ j hj => by rw [Nat.le_zero.mp hj]; simp⟩
  | n + 1, hno => by
    obtain ⟨η, h1, h3⟩ := h.window_left hA p n (fun j hj => hno j (by omega))
    obtain ⟨a, ha, a1, a2, a3⟩ := h (f^[n] p)
    have a4 := lt_of_le_of_ne a1 (Ne.symm (hno n (Nat.lt_succ_self n) a ha))
    refine ⟨min η ((f^[n] p).1 - off A.len A.top a), lt_min h1 (by linarith), ?_⟩
    intro q q1 q2 j hj
    have m1 := min_le_left η ((f^[n] p).1 - off A.len A.top a)
    have m2 := min_le_right η ((f^[n] p).1 - off A.len A.top a)
    rcases Nat.lt_or_ge n j with hlt | hge
    · obtain rfl : j = n + 1 := by omega
      have h4 := h3 q (by linarith) q2 n (le_refl _)
      have h6 : A.Maps (f^[n] q).1 ((f^[n] q).1 - off A.len A.top a + off A.len A.bottom a) := ⟨a, ha, by linarith, by linarith, rfl⟩
      have h7 := hA.maps_unique (h (f^[n] q)) h6
      rw [Function.iterate_succ_apply', Function.iterate_succ_apply', h7, a3]
      linarith
    · exact h3 q (by linarith) q2 j hge

/-- Sliding a point to the left until its orbit hits the left end point of an interval. -/
theorem Acts.floor (h : Acts A f) (hA : A.Valid) (ht : t = A.total) (hΛ : ∀ a ∈ A.top, A.len a ∈ Λ) (p : LatticePoint Λ t) (n : ℕ) :
    ∃ q : LatticePoint Λ t, q.1 ≤ p.1 ∧ (f^[n + 1] q).1 - q.1 = (f^[n + 1] p).1 - p.1 ∧ ∃ j ≤ n, ∃ a ∈ A.top, (f^[j] q).1 = off A.len A.top a := by
  obtain ⟨α, a0, a1, i, hi, a, ha, h1, h2⟩ := (h.iter p (n + 1)).slide
  have hit := a1 α a0 (le_refl _)
  have hdom := hA.transGen_dom hit.transGen_succ
  have hlt : p.1 - α < t := lt_of_lt_of_eq hdom.2 ht.symm
  have htr := h1.reverse (R' := A.inv.Maps) (fun _ _ => hA.maps_inv.mpr)
  have hmem : p.1 - α ∈ Λ := by
    obtain ⟨L, hL, e⟩ := iter_translations _ htr
    rw [e]
    refine Λ.add_mem (off_mem a hΛ) ?_
    have : ∀ L : List Label, (L.map A.inv.transl).sum ∈ Λ := by
      intro L
      induction L with
      | nil => exact Λ.zero_mem
      | cons b L ih =>
        rw [List.map_cons, List.sum_cons]
        exact Λ.add_mem (Λ.sub_mem (off_mem b hΛ) (off_mem b (fun c hc => hΛ c (hA.perm.mem_iff.mp hc)))) ih
    exact this L
  refine ⟨⟨p.1 - α, hdom.1, hlt, hmem⟩, by simpa using a0, ?_, i, hi, a, ha, ?_⟩
  · have := Acts.iter_eq hA h (p := ⟨p.1 - α, hdom.1, hlt, hmem⟩) hit
    rw [← this]
    simp only
    ring
  · exact (Acts.iter_eq hA h (p := ⟨p.1 - α, hdom.1, hlt, hmem⟩) h1).symm

/-- **The heights of the points have the properties of `Levels`.** -/
theorem Acts.levels (h : Acts A f) (hA : A.Valid) (hL : IsLattice Λ y) (hfree : ∀ x, ¬ Periodic A.Maps x) :
    Levels f (fun p => y p.1) where
  count k := by
    classical
    have hfin := hL.finite t k
    refine ⟨hfin.toFinset.card, fun K s hs => ?_⟩
    rcases s.eq_empty_or_nonempty with rfl | ⟨p₀, hp₀⟩
    · simp
    · refine Finset.card_le_card_of_injOn (fun p => p.1 - p₀.1) ?_ ?_
      · intro p hp
        have h1 := hs p hp
        have h2 := hs p₀ hp₀
        simp only [Set.Finite.coe_toFinset, Set.mem_ofPred_eq]
        refine ⟨Λ.sub_mem p.2.2.2 p₀.2.2.2, ?_, ?_⟩
        · rw [abs_le]; constructor <;> linarith [p.2.1, p.2.2.1, p₀.2.1, p₀.2.2.1]
        · rw [map_sub, abs_le]; constructor <;> linarith
      · intro p _ q _ e
        apply Subtype.ext
        simp only at e
        linarith
  step := by
    have key : ∀ s : List Label, ∃ D : ℚ, ∀ a ∈ s, |y (A.transl a)| ≤ D := by
      intro s
      induction s with
      | nil => exact ⟨0, by simp⟩
      | cons a s ih =>
        obtain ⟨D, hD⟩ := ih
        refine ⟨max D |y (A.transl a)|, fun b hb => ?_⟩
        rcases List.mem_cons.mp hb with rfl | hb
        · exact le_max_right _ _
        · exact le_trans (hD b hb) (le_max_left _ _)
    obtain ⟨D, hD⟩ := key A.top
    refine ⟨D, fun p => ?_⟩
    obtain ⟨a, ha, -, -, e⟩ := h p
    rw [← map_sub, e]
    have := hD a ha
    unfold AIET.transl at this
    rwa [show p.1 - off A.len A.top a + off A.len A.bottom a - p.1 = off A.len A.bottom a - off A.len A.top a by ring]
  recur p n := by
    obtain ⟨β, b1, b2, b3⟩ := h.window hA p n
    obtain ⟨G, hG⟩ := hL.climb b1
    refine ⟨G, fun s => ?_⟩
    obtain ⟨v, v1, v2, v3, v4, v5⟩ := hG (s - y p.1)
    refine ⟨⟨p.1 + v, by linarith [p.2.1], by linarith, Λ.add_mem p.2.2.2 v1⟩, ?_, ?_, ?_⟩
    · simp only [map_add]; linarith
    · simp only [map_add]; linarith
    · intro j hj
      have := b3 ⟨p.1 + v, by linarith [p.2.1], by linarith, Λ.add_mem p.2.2.2 v1⟩ (by simp only; linarith) (by simp only; linarith) j hj
      rw [← map_sub, this, map_sub]
  free p n hn := by
    cases n with
    | zero => rfl
    | succ n =>
      exfalso
      have := h.iter p (n + 1)
      rw [hn] at this
      exact hfree _ this.transGen_succ

end Verif
