import Verif.ExamplesCubic
import Verif.Proofs.Rename
import Verif.Proofs.Similar
import Mathlib.Data.Real.Archimedean

/-!
# C23: Self-similar transformations

The full claim C23 is: if `induce` reports WITHOUT_PERIODIC_TRAJECTORY_AUTO_SIMILAR then there is no periodic point.

The code compares the lengths of a remembered earlier state with the current lengths label by label (similarity_tracker.cc:41-50)
but the permutations position by position (similarity_tracker.cc:37-39).  These two fit together if the labels have the same order now
as they had then, or if labels have only been exchanged for labels of the same length, i.e., if the remembered transformation really is similar
to the current one.  The theorem below has this as an additional hypothesis (`IET.Aligned`); what is missing for the full claim is a report for
an IET that is not aligned, for which the claim is false, see `C23_refuted` (Props/SimilarRefuted.lean).
-/

namespace Verif

set_option linter.unusedSectionVars false

variable {σ T ε P : Type} [CommRing T] [LinearOrder T] [IsStrictOrderedRing T] [Field P] [LinearOrder P]
  [IsStrictOrderedRing P] {O : LengthsOps σ T} {d : ℕ} {c : T →+ (Fin d → ℚ)}

/-- Transformations with the same map induce the same. -/
theorem Fwd.congr {A B B' : AIET P} {δ : P} (h : Fwd A δ B) (hB' : B'.Valid) (ht : B'.total = B.total) (hm : B'.Maps = B.Maps) : Fwd A δ B' :=
  ⟨h.valid, hB', h.nonneg, by rw [ht]; exact h.total_eq, by rw [hm]; exact h.fwd, h.hits⟩

/-- A loop back to a similar transformation, up to the names of the intervals, proves that there are no periodic points. -/
theorem no_periodic_of_loop [Archimedean P] {X : AIET T} (hE : X.Valid) {E₀ E₁ : AIET T} (h1 : E₀.Valid)
    (h2 : Relation.TransGen RauzyStep E₀ E₁) (h3 : E₁.Agree X ∨ E₁.Agree X.inv) (h4 : LabelSimilar E₀ X)
    (hlen : E₀.top.map X.len = X.top.map X.len) {ι : T →+* P} (hι : StrictMono ι) : ¬ ∃ x, Periodic (X.map ι).Maps x := by
  have hι' : StrictMono (ι : T →+ P) := hι
  obtain ⟨δ, hδ, hf⟩ := Steps.fwd_pos (h1.map hι') (Steps.map_pos hι' h2)
  obtain ⟨ρ, hρ⟩ := h4.renames h1 hE hlen
  have hYv := h4.renamed_valid h1 hE h2.to_reflTransGen h3
  set Y : AIET T := ⟨E₀.top, E₀.bottom, X.len⟩ with hY
  have hYι := hYv.map hι'
  have hρι := hρ.map (ι : T →+ P)
  have hXι := hE.map hι'
  have hinvMaps : ∀ {A : AIET P}, A.Valid → A.inv.Maps = Function.swap A.Maps := by
    intro A hA
    funext u v
    exact propext hA.maps_inv
  have hmaps := hρι.maps hYι
  have hYX : (Y.map (ι : T →+ P)).inv.Maps = (X.map (ι : T →+ P)).inv.Maps := by
    rw [hinvMaps hYι, hinvMaps hXι, hmaps]
  have hprop : ∀ a ∈ Y.top, ∀ b ∈ Y.top, ι (E₀.len a) * ι (X.len b) = ι (E₀.len b) * ι (X.len a) := by
    intro a ha b hb
    rw [← map_mul, ← map_mul, h4.similar a ha b hb]
  have key : ¬ ∃ x, Periodic (E₀.map ι).Maps x := by
    rcases h3 with h3 | h3
    · have hag := h3.map (ι := (ι : T →+ P))
      exact (hf.congr hYι (by rw [hag.total, hρι.total]) (by rw [hag.maps hf.valid', hmaps])).no_periodic_of_similar hδ (.inl rfl) rfl rfl hprop
    · have hag := h3.map (ι := (ι : T →+ P))
      have ht : (X.map (ι : T →+ P)).inv.total = (Y.map (ι : T →+ P)).inv.total := by rw [hXι.total_inv, hYι.total_inv, hρι.total]
      exact (hf.congr hYι.inv (by rw [hag.total]; exact ht.symm) (by rw [hag.maps hf.valid']; exact hYX)).no_periodic_of_similar hδ (.inr rfl) rfl rfl hprop
  intro hx
  refine key (hf.periodic_iff.mpr ?_)
  rcases h3 with h3 | h3
  · rw [(h3.map (ι := (ι : T →+ P))).maps hf.valid']
    exact hx
  · rw [(h3.map (ι := (ι : T →+ P))).maps hf.valid']
    obtain ⟨x, hx⟩ := hx
    refine ⟨x, ?_⟩
    show Periodic (X.map (ι : T →+ P)).inv.Maps x
    unfold Periodic at hx ⊢
    rw [hinvMaps hXι, Relation.transGen_swap]
    exact hx

/-- A loop found by the tracker proves that there are no periodic points, if the IET is aligned with the remembered state. -/
theorem LawfulLengths.LoopFound.no_periodic [Archimedean P] {H : LawfulLengths O c ε} {E : IET T} {s : σ} (hE : H.Ok E s)
    (h : H.LoopFound E s) (ha : E.Aligned O s) {ι : T →+* P} (hι : StrictMono ι) :
    ¬ ∃ x, Periodic ((H.abs E s).map ι).Maps x := by
  obtain ⟨E₀, E₁, h1, h2, h3, h4, h5⟩ := h.aligned hE.inv hE.dom hE.valid ha
  exact no_periodic_of_loop hE.valid h1 h2 h3 h4 h5 hι

/-- **C23** (partial) If `induce` reports WITHOUT_PERIODIC_TRAJECTORY_AUTO_SIMILAR, and each label on the top has the same length
as the label that had been at its place in the state which the similarity tracker remembers, then neither the original IET nor the resulting one has a periodic point.
Here, lengths are compared in an Archimedean ordered field such as the real numbers. -/
theorem C23_induce_no_periodic_partial [Archimedean P] (H : LawfulLengths O c ε) {L : PPL} (hL : L.Lawful) {w : World σ T} (h : Reachable H L w)
    {E E' : IET T} {s' : σ} {step : InductionStep T} {fuel : ℕ} {limit : ℤ} (hE : E ∈ w.pieces)
    (hr : E.induce L O fuel limit w.lengths = .ok (step, E', s'))
    (hres : step.result = .withoutPeriodicTrajectoryAutoSimilar) (halign : E'.Aligned O s') {ι : T →+* P} (hι : StrictMono ι) :
    (¬ ∃ x, Periodic ((H.abs E w.lengths).map ι).Maps x) ∧ ¬ ∃ x, Periodic ((H.abs E' s').map ι).Maps x := by
  have hι' : StrictMono (ι : T →+ P) := hι
  have hg := h.good hL hE
  have hv := hg.ok.valid
  rcases induce_spec H hL fuel limit E w.lengths hg with ⟨h1, _⟩ | ⟨st, E₁, s₁, h1, hs, hg', _⟩
  · rw [h1] at hr; cases hr
  rw [h1] at hr
  cases hr
  cases hs with
  | cylinder => cases hres
  | @auto E' s' _ _ hm hl _ =>
    have key := hl.no_periodic (hm.ok hg.ok) halign hι
    obtain ⟨δ, hδ⟩ := Steps.fwd (hv.map hι') (Steps.map (ι := (ι : T →+ P)) hι' hm.steps)
    exact ⟨fun hx => key (hδ.periodic_iff.mp hx), key⟩
  | finish _ _ hf => cases hf <;> cases hres

namespace Examples

/-- The loop has found a similar state with the labels in the same order. -/
def foundSimilar (r : M (IET.LoopEnd × IET Cubic × SLengths Cubic)) : Bool := match r with
  | .ok (e, E', _) => decide (e = .autoSimilar ∧ E'.tracker.top = E'.top)
  | .error _ => false

theorem cubic_run : foundSimilar (cubicIET.inducePhase (SLengths.ops cubicArith) 0 18 cubicState) = true := by decide +kernel

/-- Eighteen iterations of `induce` on the transformation of Arnoux and Yoccoz find a similar state. -/
theorem cubic_similar (L : PPL) : ∃ E' s', cubicIET.induce L (SLengths.ops cubicArith) 0 18 cubicState =
    .ok (⟨.withoutPeriodicTrajectoryAutoSimilar, none, none⟩, E', s') ∧ E'.tracker.top = E'.top := by
  have h := cubic_run
  unfold foundSimilar at h
  split at h
  · rename_i e E' s' hr
    simp only [decide_eq_true_eq] at h
    refine ⟨E', s', ?_, h.2⟩
    rw [IET.induce, if_neg (by decide), hr]
    simp only [bind, Except.bind, h.1, if_true, pure, Except.pure]
  · cases h

end Examples

open Examples in
/-- The hypotheses can be met: the transformation of Arnoux and Yoccoz, with lengths in a cubic field. -/
example : ¬ ∃ x, Periodic ((hCubic.abs cubicIET cubicState).map Cubic.toReal).Maps x := by
  obtain ⟨E', s', h1, h2⟩ := cubic_similar PPL.ideal
  exact (C23_induce_no_periodic_partial hCubic PPL.ideal_lawful (sample_reachable _ _ cubic_ok) (by simp; rfl) h1 rfl (.of_eq h2) Cubic.toReal_strictMono).1

end Verif
