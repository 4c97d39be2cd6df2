import Verif.Proofs.Lattice

/-!
# The heights of all orbits go the same way

When there are no orbits between end points, then the heights of the points of a lattice either go up along all orbits or go down along all orbits.
-/

namespace Verif

set_option linter.unusedSectionVars false

variable {T : Type} [CommRing T] [LinearOrder T] [IsStrictOrderedRing T] {Λ : AddSubgroup T} {y : T →+ ℚ} {A : AIET T}
  {f : LatticePoint Λ A.total ≃ LatticePoint Λ A.total}

theorem Rises.mono {X : Type} {f : X ≃ X} {y : X → ℚ} {B : ℚ} {n : ℕ} {p : X} (h : Rises f y B n p) : Rises f y B (n + 1) p :=
  ⟨h.1, fun i hi => h.2 i (by omega)⟩

theorem iterate_symm {X : Type} (f : X ≃ X) (p : X) : ∀ n, f^[n] (f.symm^[n] p) = p
  | 0 => rfl
  | n + 1 => by
    rw [Function.iterate_succ_apply' f.symm, Function.iterate_succ_apply, Equiv.apply_symm_apply, iterate_symm f p n]

/-- A backward orbit of the left end point of a top interval does not hit the left end point of a bottom interval. -/
theorem Acts.no_bottom (h : Acts A f) (hA : A.Valid) {x z : Label} (hx : A.top.head? = some x) (hz : A.bottom.head? = some z) (hne : x ≠ z)
    (hj : ∀ n e d, ¬ Joined A n e d) {D : LatticePoint Λ A.total} (hD : 0 < D.1) (htop : ∃ a ∈ A.top, D.1 = off A.len A.top a) (i : ℕ) :
    ∀ b ∈ A.bottom, (f.symm^[i] D).1 ≠ off A.len A.bottom b := by
  have hit : ∀ i, Iter A.Maps i (f.symm^[i] D).1 D.1 := fun i => by
    have := h.iter (f.symm^[i] D) i
    rwa [iterate_symm] at this
  intro b hb e
  have hxm : x ∈ A.top := List.mem_of_mem_head? hx
  have hpos : ∀ a ∈ A.bottom, a ≠ z → 0 < off A.len A.bottom a := fun a ha hn => hA.inv.off_pos (A := A.inv) hz ha hn
  by_cases hbz : b = z
  · subst hbz
    have e0 : off A.len A.bottom b = 0 := AIET.off_head (A := A.inv) hz
    rw [e0] at e
    cases i with
    | zero => exact absurd e hD.ne'
    | succ i =>
      have h1 := h (f.symm^[i + 1] D)
      rw [Function.iterate_succ_apply', Equiv.apply_symm_apply] at h1
      rw [Function.iterate_succ_apply'] at e
      rw [e] at h1
      have h2 := hA.maps_off hxm
      rw [AIET.off_head hx] at h2
      have h3 := hA.maps_unique h1 h2
      have hxb : x ∈ A.bottom := hA.perm.mem_iff.mpr hxm
      refine hj i _ _ ⟨⟨x, hxb, h3⟩, htop, ?_, hD, hit i⟩
      rw [h3]
      exact hpos x hxb hne
  · refine hj i _ _ ⟨⟨b, hb, e⟩, htop, ?_, hD, hit i⟩
    rw [e]
    exact hpos b hb hbz

/-- The direction is the same for points which are close and to the left. -/
theorem Acts.left_constant (h : Acts A f) (hA : A.Valid) {x z : Label} (hx : A.top.head? = some x) (hz : A.bottom.head? = some z) (hne : x ≠ z)
    (hj : ∀ n e d, ¬ Joined A n e d) (hlev : Levels f (fun p => y p.1)) {B : ℚ} {n : ℕ}
    (hd : ∀ p, Rises f (fun p => y p.1) B (n + 1) p ∨ Rises f (fun p => - y p.1) B (n + 1) p) (q : LatticePoint Λ A.total) (hq : 0 < q.1) :
    ∃ η, 0 < η ∧ ∀ p : LatticePoint Λ A.total, q.1 - η < p.1 → p.1 ≤ q.1 →
      (Rises f (fun p => y p.1) B (n + 1) p ↔ Rises f (fun p => y p.1) B (n + 1) q) := by
  classical
  by_cases hex : ∃ j, j ≤ n ∧ ∃ a ∈ A.top, (f^[j] q).1 = off A.len A.top a
  · have hspec := Nat.find_spec hex
    set j := Nat.find hex with hjdef
    have hmin : ∀ i < j, ∀ a ∈ A.top, (f^[i] q).1 ≠ off A.len A.top a := by
      intro i hi a ha e
      exact Nat.find_min hex hi ⟨by omega, a, ha, e⟩
    obtain ⟨hjn, htop⟩ := hspec
    have hD : 0 < (f^[j] q).1 := by
      refine lt_of_le_of_ne (f^[j] q).2.1 fun e => ?_
      cases hjc : j with
      | zero => rw [hjc] at e; exact hq.ne e
      | succ i =>
        rw [hjc, Function.iterate_succ_apply'] at e
        have h1 := h (f^[i] q)
        rw [← e] at h1
        have hzt : z ∈ A.top := hA.perm.mem_iff.mp (List.mem_of_mem_head? hz)
        have h2 := hA.maps_off hzt
        rw [show off A.len A.bottom z = 0 from AIET.off_head (A := A.inv) hz] at h2
        exact hmin i (by omega) z hzt (hA.inv.maps_unique (hA.maps_inv.mpr h1) (hA.maps_inv.mpr h2))
    obtain ⟨η₁, e1, w1⟩ := h.window_left hA q j hmin
    obtain ⟨η₂, e2, w2⟩ := (h.symm hA).window_left hA.inv (f^[j] q) (n + 1) (fun i _ => h.no_bottom hA hx hz hne hj hD htop i)
    refine ⟨min η₁ η₂, lt_min e1 e2, fun p p1 p2 => ?_⟩
    have m1 := min_le_left η₁ η₂
    have m2 := min_le_right η₁ η₂
    have d1 := w1 p (by linarith) p2 j (le_refl _)
    have d2 := w2 (f^[j] p) (by linarith) (by linarith) (n + 1) (le_refl _)
    have back : ∀ P : LatticePoint Λ A.total, Rises f (fun p => y p.1) B (n + 1) P ↔ y ((f.symm^[n + 1] P).1 - P.1) < 0 := by
      intro P
      have r1 := hlev.up_iterate hd (f.symm^[n + 1] P) (n + 1)
      rw [iterate_symm] at r1
      rw [r1, up_iff hd, iterate_symm, map_sub]
      constructor <;> intro h <;> linarith
    rw [← hlev.up_iterate hd p j, ← hlev.up_iterate hd q j, back, back, d2]
  · push Not at hex
    obtain ⟨η, e1, w1⟩ := h.window_left hA q (n + 1) (fun j hj a ha => hex j (by omega) a ha)
    refine ⟨η, e1, fun p p1 p2 => ?_⟩
    have d1 := w1 p p1 p2 (n + 1) (le_refl _)
    have d2 := congrArg y d1
    rw [map_sub, map_sub] at d2
    rw [up_iff hd, up_iff hd]
    constructor <;> intro h <;> linarith

/-- **The direction is the same for all points.** -/
theorem Acts.constant (h : Acts A f) (hA : A.Valid) (hL : IsLattice Λ y) (hΛ : ∀ a ∈ A.top, A.len a ∈ Λ) {x z : Label}
    (hx : A.top.head? = some x) (hz : A.bottom.head? = some z) (hne : x ≠ z)
    (hj : ∀ n e d, ¬ Joined A n e d) (hlev : Levels f (fun p => y p.1)) {B : ℚ} {n : ℕ}
    (hd : ∀ p, Rises f (fun p => y p.1) B (n + 1) p ∨ Rises f (fun p => - y p.1) B (n + 1) p) (o : LatticePoint Λ A.total) (ho : o.1 = 0)
    (p : LatticePoint Λ A.total) : Rises f (fun p => y p.1) B (n + 1) p ↔ Rises f (fun p => y p.1) B (n + 1) o := by
  classical
  set R := Rises f (fun p : LatticePoint Λ A.total => y p.1) B (n + 1) with hR
  by_contra hbad
  set F : Set (LatticePoint Λ A.total) := {q | (∃ j ≤ n, ∃ a ∈ A.top, (f^[j] q).1 = off A.len A.top a) ∧ ¬ (R q ↔ R o)} with hF
  have hfloor : ∀ p, ¬ (R p ↔ R o) → ∃ q ∈ F, q.1 ≤ p.1 := by
    intro p hp
    obtain ⟨q, q1, q2, q3⟩ := h.floor hA rfl hΛ p n
    refine ⟨q, ⟨q3, ?_⟩, q1⟩
    have d2 := congrArg y q2
    rw [map_sub, map_sub] at d2
    have : R q ↔ R p := by
      rw [hR, up_iff hd, up_iff hd]
      constructor <;> intro h <;> linarith
    rwa [this]
  have hfin : F.Finite := by
    have h1 : (⋃ j ∈ Finset.range (n + 1), ⋃ a ∈ A.top.toFinset, {q : LatticePoint Λ A.total | (f^[j] q).1 = off A.len A.top a}).Finite := by
      refine Set.Finite.biUnion (Finset.finite_toSet _) fun j _ => Set.Finite.biUnion (Finset.finite_toSet _) fun a _ => ?_
      refine Set.Subsingleton.finite fun q hq q' hq' => ?_
      exact (f.injective.iterate j) (Subtype.ext ((show (f^[j] q).1 = _ from hq).trans (show (f^[j] q').1 = _ from hq').symm))
    refine h1.subset ?_
    rintro q ⟨⟨j, hj, a, ha, e⟩, -⟩
    simp only [Set.mem_iUnion]
    exact ⟨j, Finset.mem_range.mpr (by omega), a, List.mem_toFinset.mpr ha, e⟩
  obtain ⟨q₀, hq₀, -⟩ := hfloor p hbad
  obtain ⟨q, hqm, hq⟩ := hfin.toFinset.exists_min_image (fun q => q.1) ⟨q₀, hfin.mem_toFinset.mpr hq₀⟩
  rw [hfin.mem_toFinset] at hqm
  have hpos : 0 < q.1 := by
    refine lt_of_le_of_ne q.2.1 fun e => hqm.2 ?_
    rw [show q = o from Subtype.ext (by rw [← e, ho])]
  obtain ⟨η, e1, e2⟩ := h.left_constant hA hx hz hne hj hlev hd q hpos
  obtain ⟨v, v1, v2, v3⟩ := hL.small (min η q.1) (lt_min e1 hpos)
  have v4 := lt_of_lt_of_le v3 (min_le_left _ _)
  have v5 := lt_of_lt_of_le v3 (min_le_right _ _)
  let p' : LatticePoint Λ A.total := ⟨q.1 - v, by linarith, by linarith [q.2.2.1], Λ.sub_mem q.2.2.2 v1⟩
  have h1 := e2 p' (show q.1 - η < q.1 - v by linarith) (show q.1 - v ≤ q.1 by linarith)
  obtain ⟨q', hq', hle⟩ := hfloor p' (by rw [hR, h1]; exact hqm.2)
  have h2 := hq q' (hfin.mem_toFinset.mpr hq')
  have h3 : q'.1 ≤ q.1 - v := hle
  linarith

/-- **Heights are bounded from below along all orbits, or bounded from above along all orbits.** -/
theorem Acts.one_way (h : Acts A f) (hA : A.Valid) (hL : IsLattice Λ y) (hΛ : ∀ a ∈ A.top, A.len a ∈ Λ) {x z : Label}
    (hx : A.top.head? = some x) (hz : A.bottom.head? = some z) (hne : x ≠ z) (hj : ∀ n e d, ¬ Joined A n e d) :
    ∃ B : ℚ, (∀ p i, y p.1 - B < y (f^[i] p).1) ∨ (∀ p i, y (f^[i] p).1 < y p.1 + B) := by
  have hfree := no_periodic_of_not_joined hA hx hz hne hj
  have hlev := h.levels hA hL hfree
  obtain ⟨B, n, hd'⟩ := hlev.dichotomy
  have hd : ∀ p, Rises f (fun p => y p.1) B (n + 1) p ∨ Rises f (fun p => - y p.1) B (n + 1) p :=
    fun p => (hd' p).imp (fun h => h.mono) (fun h => h.mono)
  have hxm : x ∈ A.top := List.mem_of_mem_head? hx
  have ht : 0 < A.total := by
    have h1 := hA.maps_range (hA.maps_inv.mp (hA.inv.maps_off (hA.perm.mem_iff.mpr hxm)))
    linarith [h1.1, h1.2]
  have hconst := h.constant hA hL hΛ hx hz hne hj hlev hd ⟨0, le_refl _, ht, Λ.zero_mem⟩ rfl
  refine ⟨B, ?_⟩
  by_cases ho : Rises f (fun p => y p.1) B (n + 1) ⟨0, le_refl _, ht, Λ.zero_mem⟩
  · exact .inl fun p i => ((hconst p).mpr ho).1 i
  · refine .inr fun p i => ?_
    have := ((hd p).resolve_left (fun hp => ho ((hconst p).mp hp))).1 i
    simp only at this
    linarith

end Verif
