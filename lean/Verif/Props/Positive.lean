import Verif.Proofs.Positive
import Verif.Props.Visits
import Verif.Props.Instances

/-!
# C96: eventually every interval visits all the original intervals

When the limit is large enough and `induce(limit)` still reports LIMIT_REACHED, then all entries of the matrix of visits (C95) are positive.
-/

namespace Verif

set_option linter.unusedSectionVars false

variable {σ T ε : Type} [CommRing T] [LinearOrder T] [IsStrictOrderedRing T] {O : LengthsOps σ T} {d : ℕ} {c : T →+ (Fin d → ℚ)}

/-- **C96** For each irreducible IET there is an `N` such that, whenever `induce(limit)` reports LIMIT_REACHED or WITHOUT_PERIODIC_TRAJECTORY_BOSHERNITZAN for a limit of at
least `N`, then the points of each of the intervals visit all of the original intervals before they return. -/
theorem C96_induce [Archimedean T] (H : LawfulLengths O c ε) {L : PPL} (hL : L.Lawful) {w : World σ T} (h : Reachable H L w) {E : IET T} (hE : E ∈ w.pieces)
    (hi : (H.abs E w.lengths).Irreducible) :
    ∃ N : ℕ, ∀ limit : ℤ, N ≤ limit → ∀ (fuel : ℕ) (step : InductionStep T) (E' : IET T) (s' : σ), E.induce L O fuel limit w.lengths = .ok (step, E', s') →
      step.result = .limitReached ∨ step.result = .withoutPeriodicTrajectoryBoshernitzan →
      ∃ δ v, Unwinds (H.abs E w.lengths) δ (H.abs E' s') v ∧ ∀ x ∈ E.top, ∀ y ∈ E'.top, x ∈ v y := by
  obtain ⟨N, hN⟩ := rounds_positive (h.good hL hE).ok.valid hi
  refine ⟨N, fun limit hl fuel step E' s' hr hres => ?_⟩
  obtain ⟨-, h1, -⟩ := C52_all_rounds H hL h hE hr hres
  obtain ⟨δ, v, h2, h3⟩ := hN limit.toNat (by omega) _ h1
  exact ⟨δ, v, h2, fun x hx y hy => h3 x hx y (h2.labels.mem_iff.mp hy)⟩

/-- **C96** In terms of lengths only: the original lengths are combinations of the new lengths with coefficients that are all positive integers and form a matrix of
determinant one.  In particular, what is left is not longer than any of the original intervals. -/
theorem C96_lengths [Archimedean T] (H : LawfulLengths O c ε) {L : PPL} (hL : L.Lawful) {w : World σ T} (h : Reachable H L w) {E : IET T} (hE : E ∈ w.pieces)
    (hi : (H.abs E w.lengths).Irreducible) :
    ∃ N : ℕ, ∀ limit : ℤ, N ≤ limit → ∀ (fuel : ℕ) (step : InductionStep T) (E' : IET T) (s' : σ), E.induce L O fuel limit w.lengths = .ok (step, E', s') →
      step.result = .limitReached ∨ step.result = .withoutPeriodicTrajectoryBoshernitzan →
      (∃ M : Matrix E.top.toFinset E.top.toFinset ℤ, M.det = 1 ∧ (∀ x y, 1 ≤ M x y) ∧
        ∀ x : E.top.toFinset, H.len w.lengths x = ∑ y, ((M x y : ℤ) : T) * H.len s' y) ∧
      ∀ x ∈ E.top, sumLen (H.len s') E'.top ≤ H.len w.lengths x := by
  obtain ⟨N, hN⟩ := C96_induce H hL h hE hi
  refine ⟨N, fun limit hl fuel step E' s' hr hres => ?_⟩
  obtain ⟨δ, v, h1, h2⟩ := hN limit hl fuel step E' s' hr hres
  have hB := (h.induce hL hE hr).2.ok.valid
  have h3 : ∀ x y : E.top.toFinset, 1 ≤ visits E.top.toFinset v x y := by
    intro x y
    have h4 := h2 x (List.mem_toFinset.mp x.2) y (h1.labels.mem_iff.mpr (List.mem_toFinset.mp y.2))
    have h5 := List.count_pos_iff.mpr h4
    show (1 : ℤ) ≤ ((v y).count x.1 : ℤ)
    omega
  have h4 := h1.lengths hB
  refine ⟨⟨visits E.top.toFinset v, h1.det, h3, h4⟩, fun x hx => ?_⟩
  have h5 := h4 ⟨x, List.mem_toFinset.mpr hx⟩
  have h6 : sumLen (H.len s') E'.top = ∑ y : E.top.toFinset, H.len s' y := by
    exact (sumLen_perm _ h1.labels).trans (sumLen_finset _ (h1.labels.nodup_iff.mp hB.nodup))
  rw [h6]
  refine le_of_le_of_eq (Finset.sum_le_sum (fun y _ => ?_)) h5.symm
  have h7 : (0 : T) < H.len s' y := hB.pos _ (h1.labels.mem_iff.mpr (List.mem_toFinset.mp y.2))
  have h8 : (1 : T) ≤ ((visits E.top.toFinset v ⟨x, List.mem_toFinset.mpr hx⟩ y : ℤ) : T) := by exact_mod_cast h3 _ y
  exact le_mul_of_one_le_left h7.le h8

/-- **C96** The same for the components of a decomposition. -/
theorem C96_decompositionStep [Archimedean T] (H : LawfulLengths O c ε) {L : PPL} (hL : L.Lawful) {E : IET T} {s : σ} (hE : H.Ok E s)
    {D : Decomp σ T} {steps : List DStep} (h : DReach L O E s D steps) {i : ℕ} {x : Comp T} (hx : D.comps[i]? = some x)
    (hi : (H.abs x.iet D.lengths.inner).Irreducible) :
    ∃ N : ℕ, ∀ limit : ℤ, N ≤ limit → ∀ (fuel : ℕ) (step : DStep) (D' : Decomp σ T), D.decompositionStep L O fuel limit i = .ok (step, D') →
      step.result = .limitReached →
      ∃ x' δ v, D'.comps[i]? = some x' ∧ Unwinds (H.abs x.iet D.lengths.inner) δ (H.abs x'.iet D'.lengths.inner) v ∧
        ∀ a ∈ x.iet.top, ∀ b ∈ x'.iet.top, a ∈ v b := by
  obtain ⟨N, hN⟩ := rounds_positive (h.valid hL H hE x (List.mem_of_getElem? hx)) hi
  refine ⟨N, fun limit hl fuel step D' hr hres => ?_⟩
  obtain ⟨-, y, x', h1, h2, h3⟩ := C43_limitReached H hL hE h hr hres
  obtain rfl := Option.some.inj (hx.symm.trans h1)
  obtain ⟨δ, v, h4, h5⟩ := hN limit.toNat (by omega) _ h3
  exact ⟨x', δ, v, h2, h4, fun a ha b hb => h5 a ha b (h4.labels.mem_iff.mp hb)⟩

/-! ### Examples -/

namespace Examples

/-- The rotation with lengths `1` and `√2`: for all sufficiently large limits, both intervals visit both of the original intervals. -/
example : ∃ N : ℕ, ∀ limit : ℕ, N ≤ limit → ∃ step E' s', q2RotIET.induce PPL.ideal (SLengths.ops q2Arith) 0 limit q2RotState = .ok (step, E', s') ∧
    ∃ δ v, Unwinds (hQ2.abs q2RotIET q2RotState) δ (hQ2.abs E' s') v ∧ ∀ x ∈ [0, 1], ∀ y ∈ E'.top, x ∈ v y := by
  obtain ⟨N, hN⟩ := C96_induce hQ2 PPL.ideal_lawful q2World_reachable q2Rot_mem q2Rot_irreducible
  refine ⟨N, fun limit hl => ?_⟩
  obtain ⟨step, E', s', h1, h2⟩ := q2Rot_induce limit
  exact ⟨step, E', s', h1, hN limit (by exact_mod_cast hl) 0 step E' s' h1 (.inr h2)⟩

end Examples

end Verif
