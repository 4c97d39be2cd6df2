import Verif.Props.Decomposition
import Verif.Props.Similar

/-!
# C37: Components that are recognized by their self-similarity

The full claim of C37 about `withoutPeriodicTrajectory()` is: if it is true for a component then that component has no periodic points.
`C37_withoutPeriodicTrajectory_partial` (Props/Decomposition.lean) shows this if WITHOUT_PERIODIC_TRAJECTORY_AUTO_SIMILAR has never
been reported.  The theorem here also covers components for which it has been reported; what is missing for the full claim is, as in
C23, a report for a component that is not aligned with the remembered state (`IET.Aligned`), for which the claim is false, see `C37_refuted`
(Props/SimilarRefuted.lean).
-/

namespace Verif

set_option linter.unusedSectionVars false

variable {σ T ε P : Type} [CommRing T] [LinearOrder T] [IsStrictOrderedRing T] [Field P] [LinearOrder P]
  [IsStrictOrderedRing P] {O : LengthsOps σ T} {d : ℕ} {c : T →+ (Fin d → ℚ)}

/-- **C37** (partial) If `withoutPeriodicTrajectory()` is true for a component then it has no periodic points; this holds no matter how
the component was recognized, provided that it was aligned with the state which the tracker remembers whenever AUTO_SIMILAR was reported
(missing: reports for components that are not aligned, see C23). -/
theorem C37_selfSimilar_partial [Archimedean P] (H : LawfulLengths O c ε) {L : PPL} (hL : L.Lawful) {E : IET T} {s : σ} (hE : H.Ok E s)
    {D : Decomp σ T} {steps : List DStep} (h : DReachOrdered L O E s D steps) {x : Comp T} (hx : x ∈ D.comps)
    (hw : x.withoutPeriodicTrajectory = some true) {ι : T →+* P} (hι : StrictMono ι) :
    ¬ ∃ y, Periodic ((H.abs x.iet D.lengths.inner).map ι).Maps y := by
  have hι' : StrictMono (ι : T →+ P) := hι
  rintro ⟨y, hy⟩
  obtain ⟨X, g1, g2, g3⟩ := ((h.inv hL H hι' hE).flags x hx).periodic hw
  obtain ⟨z, hz⟩ := (g2.no_periodic hι' g1).2 ⟨y, hy⟩
  rcases g3 with g3 | ⟨g3 | ⟨_, E₀, E₁, a1, a2, a3, a4, a5⟩, _⟩
  · exact g3.1 (relation_of_periodic c g1 hι' hz)
  · cases g3
  · exact no_periodic_of_loop g1 a1 a2 a3 a4 a5 hι ⟨z, hz⟩

namespace Examples

/-- The decomposition of the transformation of Arnoux and Yoccoz. -/
def cubicDecomp : Decomp (SLengths Cubic) Cubic := ⟨[{ iet := cubicIET }], ⟨cubicState, [], ⟨cubicIET.top, fun _ => {}⟩, []⟩⟩

/-- A call has reported AUTO_SIMILAR for the only component, with its labels in the order that the tracker remembers. -/
def recognized (r : M (DStep × Decomp (SLengths Cubic) Cubic)) : Bool := match r with
  | .ok (step, D) => decide (step.result = .withoutPeriodicTrajectoryAutoSimilar) && match D.comps with
    | [x] => decide (x.iet.tracker.top = x.iet.top ∧ x.withoutPeriodicTrajectory = some true)
    | _ => false
  | .error _ => false

theorem cubicDecomp_run : recognized (cubicDecomp.decompositionStep PPL.ideal (SLengths.ops cubicArith) 0 18 0) = true := by decide +kernel

end Examples

open Examples in
/-- The hypotheses can be met: the only component of the transformation of Arnoux and Yoccoz is recognized by its self-similarity. -/
example : ∃ D steps x, DReachOrdered PPL.ideal (SLengths.ops cubicArith) cubicIET cubicState D steps ∧ x ∈ D.comps ∧
    x.withoutPeriodicTrajectory = some true ∧ (∃ st ∈ steps, st.result = .withoutPeriodicTrajectoryAutoSimilar) ∧
    ¬ ∃ y, Periodic ((hCubic.abs x.iet D.lengths.inner).map Cubic.toReal).Maps y := by
  have h := cubicDecomp_run
  unfold recognized at h
  split at h
  · rename_i step D hr
    rw [Bool.and_eq_true] at h
    obtain ⟨h1, h2⟩ := h
    have h1 := of_decide_eq_true h1
    split at h2
    · rename_i x hx
      have h2 := of_decide_eq_true h2
      have h0 : Decomp.make (SLengths.ops cubicArith) cubicIET cubicState = .ok cubicDecomp := by
        obtain ⟨D₀, g1, g2, g3, _⟩ := Decomp.make_spec hCubic (ι := AddMonoidHom.id Cubic) (fun _ _ h => h) cubic_ok
        rw [g1]
        simp only [Decomp.make, bind, Except.bind, pure, Except.pure] at g1
        split at g1 <;> cases g1
        cases g2
        rfl
      have hd := DReachOrdered.step (step := step) (D' := D) 0 18 0 (.init h0) hr (by
        intro _ y hy
        rw [hx] at hy
        cases hy
        exact .of_eq h2.1)
      refine ⟨D, _, x, hd, by rw [hx]; simp, h2.2, ⟨step, by simp, h1⟩, ?_⟩
      exact C37_selfSimilar_partial hCubic PPL.ideal_lawful cubic_ok hd (by rw [hx]; simp) h2.2 Cubic.toReal_strictMono
    · cases h2
  · cases h

end Verif
