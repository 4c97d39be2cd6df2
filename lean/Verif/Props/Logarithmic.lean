import Verif.Proofs.Logarithmic
import Verif.Examples

/-!
# C54: the number of rounds of induction is logarithmic
-/

namespace Verif

set_option linter.unusedSectionVars false

variable {σ T ε : Type} [CommRing T] [LinearOrder T] [IsStrictOrderedRing T] {O : LengthsOps σ T} {d : ℕ} {c : T →+ (Fin d → ℚ)}

/-- **C54** If the lengths of the `n` intervals are multiples `k a * u` of one positive length `u`, then `induce(limit)` only reports
LIMIT_REACHED if `2 * limit ≤ n * (1 + ∑ ⌊log₂ (k a)⌋)`. -/
theorem C54_limitReached (H : LawfulLengths O c ε) {L : PPL} (hL : L.Lawful) {w : World σ T} (h : Reachable H L w)
    {E : IET T} (hE : E ∈ w.pieces) {u : T} (hu : 0 < u) {k : Label → ℕ}
    (hk : ∀ a ∈ E.top, O.get a w.lengths = .ok ((k a : T) * u)) {fuel limit : ℕ}
    {step : InductionStep T} {E' : IET T} {s' : σ} (hr : E.induce L O fuel (limit : ℤ) w.lengths = .ok (step, E', s'))
    (hres : step.result = .limitReached) :
    2 * limit ≤ E.top.length * (1 + (E.top.map (fun a => Nat.log 2 (k a))).sum) := by
  have hg := h.good hL hE
  have hk : Mult u k (H.abs E w.lengths) := by
    intro a ha
    have h1 := hk a ha
    rw [H.get_spec _ _ hg.ok.inv (hg.ok.dom a ha)] at h1
    exact Except.ok.inj h1
  have := induce_limit_log H hL hg hr hres (by omega) hu hk
  rwa [Int.toNat_natCast] at this

/-- **C54** If the lengths of the `n` intervals are multiples `k a * u` of one positive length `u`, then the loop of `induce(-1)` ends
after at most `n * (1 + ∑ ⌊log₂ (k a)⌋) / 2 + 1` iterations. -/
theorem C54_unlimited (H : LawfulLengths O c ε) {L : PPL} (hL : L.Lawful) {w : World σ T} (h : Reachable H L w)
    {E : IET T} (hE : E ∈ w.pieces) {u : T} (hu : 0 < u) {k : Label → ℕ}
    (hk : ∀ a ∈ E.top, O.get a w.lengths = .ok ((k a : T) * u)) {fuel : ℕ}
    (hfuel : E.top.length * (1 + (E.top.map (fun a => Nat.log 2 (k a))).sum) < 2 * fuel) :
    ∃ step E' s', E.induce L O fuel (-1) w.lengths = .ok (step, E', s') := by
  have hg := h.good hL hE
  have hk : Mult u k (H.abs E w.lengths) := by
    intro a ha
    have h1 := hk a ha
    rw [H.get_spec _ _ hg.ok.inv (hg.ok.dom a ha)] at h1
    exact Except.ok.inj h1
  rcases induce_spec H hL fuel (-1) E w.lengths hg with ⟨h1, _⟩ | ⟨step, E', s', h1, _⟩
  · exfalso
    have hsize : E.size ≠ 1 := by
      intro h2
      simp [IET.induce, h2, pure, Except.pure] at h1
    have h2 : E.inducePhase O fuel (-1) w.lengths = .error .fuel := by
      rcases inducePhase_spec H fuel (-1) E w.lengths hg with ⟨h2, _⟩ | ⟨e, E₁, s₁, h2, hm, hc, he1, he2, he3, he4⟩
      · exact h2
      · exfalso
        simp only [IET.induce, if_neg hsize, h2, bind, Except.bind] at h1
        by_cases ha : e = .autoSimilar
        · rw [if_pos ha] at h1; cases h1
        · rw [if_neg ha] at h1
          have he : e = .found := by
            cases e with
            | exhausted => exact absurd rfl (he1 rfl).2
            | found => rfl
            | autoSimilar => exact absurd rfl ha
          subst he
          obtain ⟨st, E₂, f1, _⟩ := induceFinish_spec H hL (found := true) (hm.ok hg.ok) hc (he2 rfl).1
            (by have := hm.top_perm.length_eq; simp only at this; rw [this]; exact hsize) (by simp) (fun _ => (he2 rfl).2)
          simp only [decide_true, f1] at h1
          cases h1
    unfold IET.inducePhase at h2
    rw [if_neg (by decide), saf0_spec H hg.ok hg.cache] at h2
    simp only [bind, Except.bind, if_true] at h2
    have hg1 : H.Good { E with safCache := some (safList c (H.unswapped E w.lengths)) } w.lengths :=
      ⟨hg.ok.congr rfl rfl, LawfulLengths.CacheOk.some, hg.track.congr rfl rfl rfl rfl rfl id⟩
    obtain ⟨e, E', s', h3, h4⟩ := induceLoop_spec H (decide (∀ x ∈ safList c (H.abs E w.lengths), x = 0)) fuel _ w.lengths hg1
    have h5 := induceLoop_rounds H _ fuel _ w.lengths hg1 e E' s' h3
    rw [h3] at h2
    simp only at h2
    by_cases he : e = .exhausted
    · subst he
      have := rounds_log hu hg1.ok.valid (k := k) hk h5
      have hh : (H.abs { E with safCache := some (safList c (H.unswapped E w.lengths)) } w.lengths).top = E.top := rfl
      rw [hh] at this
      omega
    · rw [if_neg he] at h2; cases h2
  · exact ⟨step, E', s', h1⟩

/-- The example with integer lengths 50, 5, 3, 7: the loop of `induce(-1)` ends after at most 23 iterations. -/
example : ∃ step E' s', Examples.intIET.induce PPL.ideal (SLengths.ops intArith) 23 (-1) Examples.intState = .ok (step, E', s') :=
  C54_unlimited Examples.hInt PPL.ideal_lawful (Examples.sample_reachable _ _ Examples.int_ok) (List.mem_singleton.mpr rfl)
    (u := 1) (by norm_num) (k := fun a => [50, 5, 3, 7].getD a 0) (by decide) (by decide)

/-- The example with integer lengths 50, 5, 3, 7: `induce(1)` reports LIMIT_REACHED, `induce(23)` does not. -/
example (L : PPL) : ∃ E' s', Examples.intIET.induce L (SLengths.ops intArith) 0 1 Examples.intState = .ok (⟨.limitReached, none, none⟩, E', s') :=
  ⟨_, _, rfl⟩

example {step : InductionStep ℤ} {E' : IET ℤ} {s' : SLengths ℤ}
    (hr : Examples.intIET.induce PPL.ideal (SLengths.ops intArith) 0 ((23 : ℕ) : ℤ) Examples.intState = .ok (step, E', s')) :
    step.result ≠ .limitReached := fun e => absurd
  (C54_limitReached Examples.hInt PPL.ideal_lawful (Examples.sample_reachable _ _ Examples.int_ok) (List.mem_singleton.mpr rfl)
    (u := 1) (by norm_num) (k := fun a => [50, 5, 3, 7].getD a 0) (by decide) hr e) (by decide)

end Verif
