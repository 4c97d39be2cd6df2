import Verif.Proofs.Commensurable
import Verif.Examples

/-!
# C18: unlimited induction terminates for commensurable lengths
-/

namespace Verif

set_option linter.unusedSectionVars false

variable {σ T ε : Type} [CommRing T] [LinearOrder T] [IsStrictOrderedRing T] {O : LengthsOps σ T} {d : ℕ} {c : T →+ (Fin d → ℚ)}

/-- **C18** If the lengths are multiples `k a * u` of one positive length `u` then `induce(-1)` returns after at most
`∑ k a` iterations of its loop; it reports CYLINDER, SEPARATING_CONNECTION or NON_SEPARATING_CONNECTION. -/
theorem C18_terminates (H : LawfulLengths O c ε) {L : PPL} (hL : L.Lawful) {w : World σ T} (h : Reachable H L w)
    {E : IET T} (hE : E ∈ w.pieces) {u : T} (hu : 0 < u) {k : Label → ℕ}
    (hk : ∀ a ∈ E.top, O.get a w.lengths = .ok ((k a : T) * u)) {fuel : ℕ} (hfuel : (E.top.map k).sum ≤ fuel) :
    ∃ step E' s', E.induce L O fuel (-1) w.lengths = .ok (step, E', s') ∧
      (step.result = .cylinder ∨ step.result = .separatingConnection ∨ step.result = .nonSeparatingConnection) := by
  have hg := h.good hL hE
  have hv := hg.ok.valid
  have hk : Mult u k (H.abs E w.lengths) := by
    intro a ha
    have h1 := hk a ha
    rw [H.get_spec _ _ hg.ok.inv (hg.ok.dom a ha)] at h1
    exact Except.ok.inj h1
  rcases induce_spec H hL fuel (-1) E w.lengths hg with ⟨h1, _⟩ | ⟨step, E', s', h1, hs, hg', _⟩
  · exfalso
    -- the loop would have decreased the total length too often
    have hsize : E.size ≠ 1 := by
      intro h2
      simp [IET.induce, h2, pure, Except.pure] at h1
    have h2 : E.inducePhase O fuel (-1) w.lengths = .error .fuel := by
      rcases inducePhase_spec H fuel (-1) E w.lengths hg with ⟨h2, _⟩ | ⟨e, E₁, s₁, h2, hm, hc, he1, he2, he3, he4⟩
      · exact h2
      · exfalso
        simp only [IET.induce, if_neg hsize, h2, bind, Except.bind] at h1
        by_cases ha : e = .autoSimilar
        · rw [if_pos ha] at h1; cases h1
        · rw [if_neg ha] at h1
          have he : e = .found := by
            cases e with
            | exhausted => exact absurd rfl (he1 rfl).2
            | found => rfl
            | autoSimilar => exact absurd rfl ha
          subst he
          obtain ⟨st, E₂, f1, _⟩ := induceFinish_spec H hL (found := true) (hm.ok hg.ok) hc (he2 rfl).1
            (by have := hm.top_perm.length_eq; simp only at this; rw [this]; exact hsize) (by simp) (fun _ => (he2 rfl).2)
          simp only [decide_true, f1] at h1
          cases h1
    unfold IET.inducePhase at h2
    rw [if_neg (by decide), saf0_spec H hg.ok hg.cache] at h2
    simp only [bind, Except.bind, if_true] at h2
    have hg1 : H.Good { E with safCache := some (safList c (H.unswapped E w.lengths)) } w.lengths :=
      ⟨hg.ok.congr rfl rfl, LawfulLengths.CacheOk.some, hg.track.congr rfl rfl rfl rfl rfl id⟩
    obtain ⟨e, E', s', h3, h4⟩ := induceLoop_spec H (decide (∀ x ∈ safList c (H.abs E w.lengths), x = 0)) fuel _ w.lengths hg1
    rw [h3] at h2
    simp only at h2
    by_cases he : e = .exhausted
    · have h5 := iter_total hu fuel hv hk (h4.iter he)
      have hpos := (h4.moves.ok hg1.ok).valid.total_pos
      have htot : (H.abs E w.lengths).total = ((E.top.map k).sum : ℕ) * u := by
        unfold AIET.total
        have : ∀ l : List Label, (∀ a ∈ l, (H.abs E w.lengths).len a = (k a : T) * u) →
            sumLen (H.abs E w.lengths).len l = ((l.map k).sum : ℕ) * u := by
          intro l
          induction l with
          | nil => intro _; simp [sumLen]
          | cons a l ih =>
            intro hl
            rw [sumLen, ih (fun b hb => hl b (List.mem_cons_of_mem _ hb)), hl a (by simp)]
            push_cast [List.map_cons, List.sum_cons]
            ring
        exact this _ hk
      have h6 : (((E.top.map k).sum : ℕ) : T) ≤ (fuel : T) := by exact_mod_cast hfuel
      have h7 := mul_le_mul_of_nonneg_right h6 hu.le
      simp only at h5 hpos
      rw [htot] at h5
      linarith
    · rw [if_neg he] at h2; cases h2
  · refine ⟨step, E', s', h1, ?_⟩
    cases hs with
    | cylinder => exact .inl rfl
    | @auto E' s' _ _ hm hl _ =>
      exfalso
      obtain ⟨k', hk'⟩ := Steps.mult_fwd hu hv hm.steps hk
      exact hl.false (hm.ok hg.ok).valid hu hk'
    | @finish E₁ _ _ _ _ hm hf _ hinf =>
      have hh := hinf rfl
      cases hf with
      | separating => exact .inr (.inl rfl)
      | nonSeparating => exact .inr (.inr rfl)
      | boshernitzan _ _ _ hne => exact absurd hh hne
      | limit _ _ _ hne _ => exact absurd hh hne

/-- **C18** For commensurable lengths the result is never WITHOUT_PERIODIC_TRAJECTORY_AUTO_SIMILAR, for no limit. -/
theorem C18_not_autoSimilar (H : LawfulLengths O c ε) {L : PPL} (hL : L.Lawful) {w : World σ T} (h : Reachable H L w)
    {E E' : IET T} {s' : σ} {step : InductionStep T} {fuel : ℕ} {limit : ℤ} (hE : E ∈ w.pieces) {u : T} (hu : 0 < u) {k : Label → ℕ}
    (hk : ∀ a ∈ E.top, O.get a w.lengths = .ok ((k a : T) * u))
    (hr : E.induce L O fuel limit w.lengths = .ok (step, E', s')) : step.result ≠ .withoutPeriodicTrajectoryAutoSimilar := by
  have hg := h.good hL hE
  have hv := hg.ok.valid
  have hk : Mult u k (H.abs E w.lengths) := by
    intro a ha
    have h1 := hk a ha
    rw [H.get_spec _ _ hg.ok.inv (hg.ok.dom a ha)] at h1
    exact Except.ok.inj h1
  rcases induce_spec H hL fuel limit E w.lengths hg with ⟨h1, _⟩ | ⟨step, E', s', h1, hs, hg', _⟩
  · rw [h1] at hr; cases hr
  rw [h1] at hr
  cases hr
  intro hres
  cases hs with
  | cylinder => cases hres
  | @auto E' s' _ _ hm hl _ =>
    obtain ⟨k', hk'⟩ := Steps.mult_fwd hu hv hm.steps hk
    exact hl.false (hm.ok hg.ok).valid hu hk'
  | finish _ _ hf => cases hf <;> cases hres

/-- **C18** For integer lengths (with exact arithmetic) the number of iterations is at most the total length. -/
theorem C18_integers {L : PPL} (hL : L.Lawful) {w : World (SLengths ℤ) ℤ} (h : Reachable Examples.hInt L w) {E : IET ℤ} (hE : E ∈ w.pieces)
    {fuel : ℕ} (hfuel : (Examples.hInt.abs E w.lengths).total ≤ fuel) :
    ∃ step E' s', E.induce L (SLengths.ops intArith) fuel (-1) w.lengths = .ok (step, E', s') ∧
      (step.result = .cylinder ∨ step.result = .separatingConnection ∨ step.result = .nonSeparatingConnection) := by
  have hg := h.good hL hE
  have hpos := hg.ok.valid.pos
  refine C18_terminates Examples.hInt hL h hE (u := 1) (by norm_num)
    (k := fun a => ((Examples.hInt.abs E w.lengths).len a).toNat) ?_ ?_
  · intro a ha
    rw [Examples.hInt.get_spec _ _ hg.ok.inv (hg.ok.dom a ha)]
    congr 1
    have h1 := hpos a ha
    have h2 : (((Examples.hInt.abs E w.lengths).len a).toNat : ℤ) = (Examples.hInt.abs E w.lengths).len a :=
      Int.toNat_of_nonneg h1.le
    rw [mul_one]
    exact h2.symm
  · have : ∀ l : List Label, (∀ a ∈ l, 0 < (Examples.hInt.abs E w.lengths).len a) →
        (((l.map (fun a => ((Examples.hInt.abs E w.lengths).len a).toNat)).sum : ℕ) : ℤ) = sumLen (Examples.hInt.abs E w.lengths).len l := by
      intro l
      induction l with
      | nil => intro _; rfl
      | cons a l ih =>
        intro hl
        rw [sumLen, ← ih (fun b hb => hl b (List.mem_cons_of_mem _ hb)), List.map_cons, List.sum_cons]
        rw [Nat.cast_add]
        congr 1
        exact Int.toNat_of_nonneg (hl a (by simp)).le
    have h1 := this _ hpos
    have h2 : (((E.top.map (fun a => ((Examples.hInt.abs E w.lengths).len a).toNat)).sum : ℕ) : ℤ) ≤ fuel := by
      refine le_trans (le_of_eq h1) hfuel
    exact_mod_cast h2

/-- The example with integer lengths: unlimited induction returns. -/
example : ∃ step E' s', Examples.intIET.induce PPL.ideal (SLengths.ops intArith) 1000 (-1) Examples.intState = .ok (step, E', s') ∧
    (step.result = .cylinder ∨ step.result = .separatingConnection ∨ step.result = .nonSeparatingConnection) :=
  C18_integers PPL.ideal_lawful (Examples.sample_reachable _ _ Examples.int_ok) (List.mem_singleton.mpr rfl) (by decide)

/-- **C18** For rational lengths the number of iterations is at most the total length times a common denominator of the lengths. -/
theorem C18_rationals {L : PPL} (hL : L.Lawful) {w : World (SLengths ℚ) ℚ} (h : Reachable Examples.hRat L w) {E : IET ℚ} (hE : E ∈ w.pieces)
    {D : ℕ} (hD : 0 < D) (hden : ∀ a ∈ E.top, ∀ x, (SLengths.ops mpqArith).get a w.lengths = .ok x → x.den ∣ D)
    {fuel : ℕ} (hfuel : (Examples.hRat.abs E w.lengths).total * D ≤ fuel) :
    ∃ step E' s', E.induce L (SLengths.ops mpqArith) fuel (-1) w.lengths = .ok (step, E', s') ∧
      (step.result = .cylinder ∨ step.result = .separatingConnection ∨ step.result = .nonSeparatingConnection) := by
  have hg := h.good hL hE
  have hpos := hg.ok.valid.pos
  have hD' : (0 : ℚ) < D := by exact_mod_cast hD
  have hk : ∀ a ∈ E.top, (((Examples.hRat.abs E w.lengths).len a * D).num.toNat : ℚ) = (Examples.hRat.abs E w.lengths).len a * D := by
    intro a ha
    obtain ⟨m, hm⟩ := hden a ha _ (Examples.hRat.get_spec _ _ hg.ok.inv (hg.ok.dom a ha))
    have e : (Examples.hRat.abs E w.lengths).len a * D = (((Examples.hRat.abs E w.lengths).len a).num * m : ℤ) := by
      rw [hm]
      push_cast
      rw [← mul_assoc]
      congr 1
      exact Rat.mul_den_eq_num _
    have h0 : 0 ≤ ((Examples.hRat.abs E w.lengths).len a).num * m := by
      have := mul_pos (hpos a ha) hD'
      rw [e] at this
      exact_mod_cast this.le
    rw [e, Rat.num_intCast]
    exact_mod_cast Int.toNat_of_nonneg h0
  refine C18_terminates Examples.hRat hL h hE (u := 1 / (D : ℚ)) (by positivity)
    (k := fun a => ((Examples.hRat.abs E w.lengths).len a * D).num.toNat) ?_ ?_
  · intro a ha
    rw [Examples.hRat.get_spec _ _ hg.ok.inv (hg.ok.dom a ha), hk a ha]
    congr 1
    show _ = (Examples.hRat.abs E w.lengths).len a * D * (1 / D)
    field_simp
    rfl
  · have : ∀ l : List Label, (∀ a ∈ l, a ∈ E.top) →
        (((l.map (fun a => ((Examples.hRat.abs E w.lengths).len a * D).num.toNat)).sum : ℕ) : ℚ) = sumLen (Examples.hRat.abs E w.lengths).len l * D := by
      intro l
      induction l with
      | nil => intro _; simp [sumLen]
      | cons a l ih =>
        intro hl
        rw [sumLen, add_mul, ← ih (fun b hb => hl b (List.mem_cons_of_mem _ hb)), List.map_cons, List.sum_cons, Nat.cast_add, hk a (hl a (by simp))]
    have h1 := this E.top (fun _ h => h)
    have h2 : (((E.top.map (fun a => ((Examples.hRat.abs E w.lengths).len a * D).num.toNat)).sum : ℕ) : ℚ) ≤ fuel := le_trans (le_of_eq h1) hfuel
    exact_mod_cast h2

namespace Examples
/-- Four intervals with rational lengths. -/
def ratIET : IET ℚ := .fresh [0, 1, 2, 3] [3, 1, 0, 2]
/-- Their lengths. -/
def ratState : SLengths ℚ := ⟨[], [1 / 2, 2 / 3, 5 / 4, 1 / 6]⟩
theorem rat_ok : hRat.Ok ratIET ratState := sample_ok _ _ _ _ (by decide +kernel)
end Examples

/-- An example with rational lengths: unlimited induction returns after at most 31 iterations. -/
example : ∃ step E' s', Examples.ratIET.induce PPL.ideal (SLengths.ops mpqArith) 31 (-1) Examples.ratState = .ok (step, E', s') ∧
    (step.result = .cylinder ∨ step.result = .separatingConnection ∨ step.result = .nonSeparatingConnection) := by
  refine C18_rationals PPL.ideal_lawful (Examples.sample_reachable _ _ Examples.rat_ok) (List.mem_singleton.mpr rfl) (D := 12) (by norm_num) ?_ (by decide +kernel)
  intro a ha x hx
  have ha : a ∈ [0, 1, 2, 3] := ha
  simp only [List.mem_cons, List.not_mem_nil, or_false] at ha
  rcases ha with rfl | rfl | rfl | rfl <;> cases hx <;> decide +kernel

end Verif
