import Verif.Proofs.Growth
import Verif.Props.Positive

/-!
# C99: visits grow without bounds, lengths shrink to zero
-/

namespace Verif

set_option linter.unusedSectionVars false

variable {σ T ε : Type} [CommRing T] [LinearOrder T] [IsStrictOrderedRing T] {O : LengthsOps σ T} {d : ℕ} {c : T →+ (Fin d → ℚ)}

/-- When each interval visits each of the original intervals at least `K` times, then what is left fits `K` times into each of the original intervals. -/
theorem Unwinds.fits {A B : AIET T} {δ : T} {v : Label → List Label} (hB : B.Valid) (h : Unwinds A δ B v) {K : ℕ} {x : Label} (hx : x ∈ A.top)
    (hK : ∀ y ∈ A.top, K ≤ (v y).count x) : (K : T) * sumLen B.len B.top ≤ A.len x := by
  have h5 := h.lengths hB ⟨x, List.mem_toFinset.mpr hx⟩
  have h6 : sumLen B.len B.top = ∑ y : A.top.toFinset, B.len y :=
    (sumLen_perm _ h.labels).trans (sumLen_finset _ (h.labels.nodup_iff.mp hB.nodup))
  rw [h6, Finset.mul_sum]
  refine le_of_le_of_eq (Finset.sum_le_sum (fun y _ => ?_)) h5.symm
  have hy := List.mem_toFinset.mp y.2
  have h7 : (0 : T) < B.len y := hB.pos _ (h.labels.mem_iff.mpr hy)
  refine mul_le_mul_of_nonneg_right ?_ h7.le
  have : ((K : ℤ) : T) ≤ ((((v y).count x : ℕ) : ℤ) : T) := by exact_mod_cast hK y hy
  simpa [visits] using this

/-- **C99** For each irreducible IET and each `K` there is an `N` such that, whenever `induce(limit)` reports LIMIT_REACHED or WITHOUT_PERIODIC_TRAJECTORY_BOSHERNITZAN for a
limit of at least `N`, then the points of each of the intervals visit each of the original intervals at least `K` times before they return. -/
theorem C99_visits [Archimedean T] (H : LawfulLengths O c ε) {L : PPL} (hL : L.Lawful) {w : World σ T} (h : Reachable H L w) {E : IET T} (hE : E ∈ w.pieces)
    (hi : (H.abs E w.lengths).Irreducible) (K : ℕ) :
    ∃ N : ℕ, ∀ limit : ℤ, N ≤ limit → ∀ (fuel : ℕ) (step : InductionStep T) (E' : IET T) (s' : σ), E.induce L O fuel limit w.lengths = .ok (step, E', s') →
      step.result = .limitReached ∨ step.result = .withoutPeriodicTrajectoryBoshernitzan →
      ∃ δ v, Unwinds (H.abs E w.lengths) δ (H.abs E' s') v ∧ ∀ x ∈ E.top, ∀ y ∈ E'.top, K ≤ (v y).count x := by
  obtain ⟨N, hN⟩ := rounds_growth (h.good hL hE).ok.valid hi K
  refine ⟨N, fun limit hl fuel step E' s' hr hres => ?_⟩
  obtain ⟨-, h1, -⟩ := C52_all_rounds H hL h hE hr hres
  obtain ⟨δ, v, h2, h3⟩ := hN limit.toNat (by omega) _ h1
  exact ⟨δ, v, h2, fun x hx y hy => h3 x hx y (h2.labels.mem_iff.mp hy)⟩

/-- **C99** So `K` copies of what is left fit into each of the original intervals. -/
theorem C99_fits [Archimedean T] (H : LawfulLengths O c ε) {L : PPL} (hL : L.Lawful) {w : World σ T} (h : Reachable H L w) {E : IET T} (hE : E ∈ w.pieces)
    (hi : (H.abs E w.lengths).Irreducible) (K : ℕ) :
    ∃ N : ℕ, ∀ limit : ℤ, N ≤ limit → ∀ (fuel : ℕ) (step : InductionStep T) (E' : IET T) (s' : σ), E.induce L O fuel limit w.lengths = .ok (step, E', s') →
      step.result = .limitReached ∨ step.result = .withoutPeriodicTrajectoryBoshernitzan → ∀ x ∈ E.top, (K : T) * sumLen (H.len s') E'.top ≤ H.len w.lengths x := by
  obtain ⟨N, hN⟩ := C99_visits H hL h hE hi K
  refine ⟨N, fun limit hl fuel step E' s' hr hres x hx => ?_⟩
  obtain ⟨δ, v, h1, h2⟩ := hN limit hl fuel step E' s' hr hres
  exact h1.fits (h.induce hL hE hr).2.ok.valid hx (fun y hy => h2 x hx y (h1.labels.mem_iff.mpr hy))

/-- **C99** The lengths shrink to zero: for each `η` there is an `N` such that the sum of the lengths is smaller than `η` whenever `induce(limit)` reports LIMIT_REACHED or
WITHOUT_PERIODIC_TRAJECTORY_BOSHERNITZAN for a limit of at least `N`. -/
theorem C99_shrink [Archimedean T] (H : LawfulLengths O c ε) {L : PPL} (hL : L.Lawful) {w : World σ T} (h : Reachable H L w) {E : IET T} (hE : E ∈ w.pieces)
    (hi : (H.abs E w.lengths).Irreducible) {η : T} (hη : 0 < η) :
    ∃ N : ℕ, ∀ limit : ℤ, N ≤ limit → ∀ (fuel : ℕ) (step : InductionStep T) (E' : IET T) (s' : σ), E.induce L O fuel limit w.lengths = .ok (step, E', s') →
      step.result = .limitReached ∨ step.result = .withoutPeriodicTrajectoryBoshernitzan → sumLen (H.len s') E'.top < η := by
  have hv := (h.good hL hE).ok.valid
  obtain ⟨x, hx⟩ := List.exists_mem_of_ne_nil _ hv.ne_nil
  obtain ⟨K, hK⟩ := Archimedean.arch (H.len w.lengths x) hη
  obtain ⟨N, hN⟩ := C99_fits H hL h hE hi (K + 1)
  refine ⟨N, fun limit hl fuel step E' s' hr hres => ?_⟩
  have h1 := hN limit hl fuel step E' s' hr hres x hx
  by_contra hlt
  rw [not_lt] at hlt
  have h2 : (((K + 1 : ℕ) : T)) * η ≤ ((K + 1 : ℕ) : T) * sumLen (H.len s') E'.top := mul_le_mul_of_nonneg_left hlt (Nat.cast_nonneg _)
  rw [nsmul_eq_mul] at hK
  have h3 : ((K + 1 : ℕ) : T) * η = (K : T) * η + η := by push_cast; ring
  have := (h3.symm.le.trans h2).trans (h1.trans hK)
  linarith

/-- **C99** The same for the components of a decomposition. -/
theorem C99_decompositionStep [Archimedean T] (H : LawfulLengths O c ε) {L : PPL} (hL : L.Lawful) {E : IET T} {s : σ} (hE : H.Ok E s)
    {D : Decomp σ T} {steps : List DStep} (h : DReach L O E s D steps) {i : ℕ} {x : Comp T} (hx : D.comps[i]? = some x)
    (hi : (H.abs x.iet D.lengths.inner).Irreducible) (K : ℕ) :
    ∃ N : ℕ, ∀ limit : ℤ, N ≤ limit → ∀ (fuel : ℕ) (step : DStep) (D' : Decomp σ T), D.decompositionStep L O fuel limit i = .ok (step, D') →
      step.result = .limitReached →
      ∃ x' δ v, D'.comps[i]? = some x' ∧ Unwinds (H.abs x.iet D.lengths.inner) δ (H.abs x'.iet D'.lengths.inner) v ∧
        ∀ a ∈ x.iet.top, (∀ b ∈ x'.iet.top, K ≤ (v b).count a) ∧ (K : T) * sumLen (H.len D'.lengths.inner) x'.iet.top ≤ H.len D.lengths.inner a := by
  obtain ⟨N, hN⟩ := rounds_growth (h.valid hL H hE x (List.mem_of_getElem? hx)) hi K
  refine ⟨N, fun limit hl fuel step D' hr hres => ?_⟩
  obtain ⟨-, y, x', h1, h2, h3⟩ := C43_limitReached H hL hE h hr hres
  obtain rfl := Option.some.inj (hx.symm.trans h1)
  obtain ⟨δ, v, h4, h5⟩ := hN limit.toNat (by omega) _ h3
  have hB := rounds_valid (h.valid hL H hE x (List.mem_of_getElem? hx)) h3
  exact ⟨x', δ, v, h2, h4, fun a ha => ⟨fun b hb => h5 a ha b (h4.labels.mem_iff.mp hb), h4.fits hB ha (fun b hb => h5 a ha b hb)⟩⟩

/-! ### Examples -/

namespace Examples

/-- The rotation with lengths `1` and `√2`: for all sufficiently large limits, both intervals visit both of the original intervals at least a million times. -/
example : ∃ N : ℕ, ∀ limit : ℕ, N ≤ limit → ∃ step E' s', q2RotIET.induce PPL.ideal (SLengths.ops q2Arith) 0 limit q2RotState = .ok (step, E', s') ∧
    ∃ δ v, Unwinds (hQ2.abs q2RotIET q2RotState) δ (hQ2.abs E' s') v ∧ ∀ x ∈ [0, 1], ∀ y ∈ E'.top, 1000000 ≤ (v y).count x := by
  obtain ⟨N, hN⟩ := C99_visits hQ2 PPL.ideal_lawful q2World_reachable q2Rot_mem q2Rot_irreducible 1000000
  refine ⟨N, fun limit hl => ?_⟩
  obtain ⟨step, E', s', h1, h2⟩ := q2Rot_induce limit
  exact ⟨step, E', s', h1, hN limit (by exact_mod_cast hl) 0 step E' s' h1 (.inr h2)⟩

end Examples

end Verif
