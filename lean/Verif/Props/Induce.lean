import Verif.Examples

/-!
# C11, C12, C13, C14, C16, C19: the results of `induce(limit)`
-/

namespace Verif

set_option linter.unusedSectionVars false

variable {σ T ε P : Type} [CommRing T] [LinearOrder T] [IsStrictOrderedRing T] [CommRing P] [LinearOrder P]
  [IsStrictOrderedRing P] {O : LengthsOps σ T} {d : ℕ} {c : T →+ (Fin d → ℚ)}

/-- The specification of `induce` for a call that returned. -/
theorem Reachable.induce {H : LawfulLengths O c ε} {L : PPL} (hL : L.Lawful) {w : World σ T} (h : Reachable H L w)
    {E E' : IET T} {s' : σ} {step : InductionStep T} {fuel : ℕ} {limit : ℤ} (hE : E ∈ w.pieces)
    (hr : E.induce L O fuel limit w.lengths = .ok (step, E', s')) :
    InduceSpec H limit E w.lengths step E' s' ∧ H.Good E' s' := by
  rcases induce_spec H hL fuel limit E w.lengths (h.good hL hE) with ⟨h1, _⟩ | ⟨st, E₁, s₁, h1, h2, h3, _⟩
  · rw [h1] at hr; cases hr
  · rw [h1] at hr; cases hr; exact ⟨h2, h3⟩

/-! ### C11 -/

/-- **C11** `induce` reports CYLINDER iff there is exactly one interval.  The IET is then unchanged and every point is fixed. -/
theorem C11_cylinder (H : LawfulLengths O c ε) {L : PPL} (hL : L.Lawful) {w : World σ T} (h : Reachable H L w)
    {E E' : IET T} {s' : σ} {step : InductionStep T} {fuel : ℕ} {limit : ℤ} (hE : E ∈ w.pieces)
    (hr : E.induce L O fuel limit w.lengths = .ok (step, E', s')) {ι : T →+ P} :
    (step.result = .cylinder ↔ E.top.length = 1) ∧
    (step.result = .cylinder → E' = E ∧ s' = w.lengths ∧ step.connection = none ∧ step.additional = none ∧
      ∀ x, 0 ≤ x → x < ((H.abs E w.lengths).map ι).total → ((H.abs E w.lengths).map ι).Maps x x) := by
  obtain ⟨hs, hg⟩ := h.induce hL hE hr
  have hv := (h.good hL hE).ok.valid
  cases hs with
  | cylinder h1 =>
    refine ⟨⟨fun _ => h1, fun _ => rfl⟩, fun _ => ⟨rfl, rfl, rfl, rfl, ?_⟩⟩
    intro x hx hx'
    obtain ⟨a, ha⟩ := List.length_eq_one_iff.mp h1
    have hb : E.bottom = [a] := by
      have := hv.perm
      simp only [LawfulLengths.abs, ha] at this
      exact List.perm_singleton.mp this
    refine ⟨a, by simp [LawfulLengths.abs, AIET.map, ha], ?_⟩
    simp [AIET.total, AIET.map, LawfulLengths.abs, ha, hb] at hx' ⊢
    exact ⟨hx, hx'⟩
  | auto h1 => exact ⟨⟨fun h => (by cases h), fun h => absurd h h1⟩, fun h => (by cases h)⟩
  | finish h1 _ hf =>
    refine ⟨⟨fun h => ?_, fun h => absurd h h1⟩, fun h => ?_⟩ <;> cases hf <;> cases h

/-- **C11** For a single interval every call returns. -/
theorem C11_cylinder_returns (L : PPL) {E : IET T} {s : σ} (h : E.top.length = 1) (fuel : ℕ) (limit : ℤ) :
    E.induce L O fuel limit s = .ok ({ result := .cylinder }, E, s) := by
  unfold IET.induce
  rw [if_pos (show E.size = 1 from h)]
  rfl

/-- A single interval of integer length 3. -/
example : Reachable Examples.hInt PPL.ideal ⟨[IET.fresh [1] [1]], ⟨[], [5, 3]⟩⟩ :=
  Examples.sample_reachable _ _ (Examples.sample_ok _ _ _ _ (by decide))

/-! ### C12 -/

/-- **C12** SEPARATING_CONNECTION: what remains and the additional IET are a splitting of a first return map `A` of the original,
the labels of `A` are those of the original. -/
theorem C12_separating (H : LawfulLengths O c ε) {L : PPL} (hL : L.Lawful) {w : World σ T} (h : Reachable H L w)
    {E E' : IET T} {s' : σ} {step : InductionStep T} {fuel : ℕ} {limit : ℤ} (hE : E ∈ w.pieces)
    (hr : E.induce L O fuel limit w.lengths = .ok (step, E', s')) (hres : step.result = .separatingConnection)
    {ι : T →+ P} (hι : StrictMono ι) :
    ∃ b t R, step.connection = some (b, t) ∧ step.additional = some R ∧
      E'.bottom.getLast? = some b ∧ E'.top.getLast? = some t ∧
      (H.abs E' s').Valid ∧ (H.abs R s').Valid ∧ (E'.top ++ R.top).Perm E.top ∧ (∀ a ∈ E'.top, a ∉ R.top) ∧
      ∃ δ, IsReturnMap ((H.abs E w.lengths).map ι) δ ⟨E'.top ++ R.top, E'.bottom ++ R.bottom, fun a => ι (H.len s' a)⟩ := by
  obtain ⟨hs, hg⟩ := h.induce hL hE hr
  have hv := (h.good hL hE).ok.valid
  cases hs with
  | cylinder => cases hres
  | auto => cases hres
  | @finish E₁ _ _ _ h1 hm hf =>
    cases hf with
    | nonSeparating => cases hres
    | boshernitzan => cases hres
    | limit => cases hres
    | @separating E' R k b t hcut hgR hsw hb ht =>
      have hv1 := Steps.valid hv hm.steps
      obtain ⟨f1, f2, f3, f4, f5, f6, f7⟩ := hcut.facts hv1
      simp only [LawfulLengths.abs] at f1 f2 f5
      refine ⟨b, t, R, rfl, rfl, hb, ht, hcut.valid_left hv1, hcut.valid_right hv1, ?_, f5, ?_⟩
      · rw [← f1]; exact Steps.top_perm hm.steps
      · obtain ⟨δ, hδ⟩ := Steps.fwd (hv.map hι) (Steps.map (ι := ι) hι hm.steps)
        refine ⟨δ, ?_⟩
        have := hδ.isReturnMap
        simp only [LawfulLengths.abs, AIET.map, f1, f2] at this
        exact this

/-- A reducible IET with integer lengths. -/
def Examples.sepIET : IET ℤ := .fresh [0, 1, 2, 3] [1, 0, 3, 2]
/-- Its lengths. -/
def Examples.sepState : SLengths ℤ := ⟨[], [8, 5, 1, 3]⟩

theorem Examples.sep_reachable : Reachable Examples.hInt PPL.ideal ⟨[Examples.sepIET], Examples.sepState⟩ :=
  Examples.sample_reachable _ _ (Examples.sample_ok _ _ _ _ (by decide))

/-- A step of induction, then the second half is split off. -/
example (L : PPL) : (Examples.sepIET.induce L (SLengths.ops intArith) 0 1 Examples.sepState).toOption.map
    (fun r => (r.1.result, r.1.connection, r.1.additional.map (fun R => (R.top, R.bottom)), r.2.1.top, r.2.1.bottom, r.2.2.lengths)) =
    some (.separatingConnection, some (0, 1), some ([2, 3], [3, 2]), [0, 1], [1, 0], [3, 2, 1, 3]) := rfl

/-! ### C13 -/

/-- **C13** NON_SEPARATING_CONNECTION: exactly the label `t` disappears and the rest is a first return map to a right hand
sub-interval. -/
theorem C13_nonSeparating (H : LawfulLengths O c ε) {L : PPL} (hL : L.Lawful) {w : World σ T} (h : Reachable H L w)
    {E E' : IET T} {s' : σ} {step : InductionStep T} {fuel : ℕ} {limit : ℤ} (hE : E ∈ w.pieces)
    (hr : E.induce L O fuel limit w.lengths = .ok (step, E', s')) (hres : step.result = .nonSeparatingConnection)
    {ι : T →+ P} (hι : StrictMono ι) :
    ∃ b t, step.connection = some (b, t) ∧ step.additional = none ∧ b ≠ t ∧ b ∈ E'.top ∧
      (t :: E'.top).Perm E.top ∧ (t :: E'.bottom).Perm E.bottom ∧ (H.abs E' s').Valid ∧
      ∃ δ, 0 < δ ∧ IsReturnMap ((H.abs E w.lengths).map ι) δ ((H.abs E' s').map ι) := by
  obtain ⟨hs, hg⟩ := h.induce hL hE hr
  have hv := (h.good hL hE).ok.valid
  cases hs with
  | cylinder => cases hres
  | auto => cases hres
  | @finish E₁ _ _ _ h1 hm hf =>
    cases hf with
    | separating => cases hres
    | boshernitzan => cases hres
    | limit => cases hres
    | @nonSeparating E' b t l hirr htop hbot hne hlen hmerge =>
      have hv1 := Steps.valid hv hm.steps
      have hp := Steps.top_perm hm.steps
      simp only [LawfulLengths.abs, htop] at hp
      have hvE' := hg.ok.valid
      refine ⟨b, t, rfl, rfl, hne, ?_, hp, ?_, hvE', ?_⟩
      · have : b ∈ E₁.top := hv1.perm.mem_iff.mp (by simp [LawfulLengths.abs, hbot])
        rw [htop] at this
        simpa [hne] using this
      · have h2 : E'.bottom.Perm E'.top := hvE'.perm
        have h3 : E.bottom.Perm E.top := hv.perm
        exact (List.Perm.cons t h2).trans (hp.trans h3.symm)
      · obtain ⟨δ, hδ⟩ := Steps.fwd (hv.map hι) (Steps.map (ι := ι) hι hm.steps)
        obtain ⟨b', hb', hδ'⟩ := MergeTop.fwd (hv1.map hι) (hmerge.map (ι := ι))
        refine ⟨_, ?_, (hδ.trans hδ').isReturnMap⟩
        have h2 := (hv1.map hι).pos b' hb'
        have h3 := hδ.nonneg
        linarith

/-- Unlimited induction on the example ends with a connection. -/
example (L : PPL) : (Examples.intIET.induce L (SLengths.ops intArith) 10 (-1) Examples.intState).toOption.map
    (fun r => (r.1.result, r.1.connection, r.2.1.top, r.2.1.bottom, r.2.2.lengths)) =
    some (.nonSeparatingConnection, some (2, 1), [2, 0, 3], [3, 2, 0], [5, 3, 3, 2]) := rfl

/-! ### C14 -/

/-- **C14** LIMIT_REACHED: the result is irreducible and there is no connection to be seen; it has the same labels as before and
is a first return map to a right hand sub-interval.  This result never comes from an unlimited induction. -/
theorem C14_limitReached (H : LawfulLengths O c ε) {L : PPL} (hL : L.Lawful) {w : World σ T} (h : Reachable H L w)
    {E E' : IET T} {s' : σ} {step : InductionStep T} {fuel : ℕ} {limit : ℤ} (hE : E ∈ w.pieces)
    (hr : E.induce L O fuel limit w.lengths = .ok (step, E', s')) (hres : step.result = .limitReached)
    {ι : T →+ P} (hι : StrictMono ι) :
    limit ≠ -1 ∧ step.connection = none ∧ step.additional = none ∧ (H.abs E' s').Irreducible ∧
      (∀ a b, E'.top.head? = some a → E'.bottom.head? = some b → O.get a s' ≠ O.get b s') ∧
      E'.top.Perm E.top ∧ E'.bottom.Perm E.bottom ∧
      ∃ δ, IsReturnMap ((H.abs E w.lengths).map ι) δ ((H.abs E' s').map ι) := by
  obtain ⟨hs, hg⟩ := h.induce hL hE hr
  have hv := (h.good hL hE).ok.valid
  cases hs with
  | cylinder => cases hres
  | auto => cases hres
  | @finish E₁ _ _ _ h1 hm hf hlim hinf =>
    cases hf with
    | separating => cases hres
    | boshernitzan => cases hres
    | nonSeparating => cases hres
    | limit e1 e2 hirr hne _ =>
      have habs : H.abs E₁ s' = H.abs E' s' := by simp [LawfulLengths.abs, e1, e2]
      have hst := hm.steps
      simp only [habs] at hirr hne hst
      refine ⟨?_, rfl, rfl, hirr, ?_, Steps.top_perm hst, ?_, ?_⟩
      · intro hl
        have := hinf hl
        rw [habs] at this
        exact hne this
      · intro a b ha hb heq
        apply hne
        intro a' b' ha' hb'
        have ha' : E'.top.head? = some a' := ha'
        have hb' : E'.bottom.head? = some b' := hb'
        rw [ha] at ha'
        rw [hb] at hb'
        cases ha'
        cases hb'
        have m1 : a ∈ E'.top := List.mem_of_head? ha
        have m2 : b ∈ E'.top := hg.ok.valid.perm.mem_iff.mp (List.mem_of_head? hb)
        rw [H.get_spec _ _ hg.ok.inv (hg.ok.dom a m1), H.get_spec _ _ hg.ok.inv (hg.ok.dom b m2)] at heq
        exact Except.ok.inj heq
      · have h2 : E'.bottom.Perm E'.top := hg.ok.valid.perm
        have h3 : E.bottom.Perm E.top := hv.perm
        exact h2.trans ((Steps.top_perm hst).trans h3.symm)
      · obtain ⟨δ, hδ⟩ := Steps.fwd (hv.map hι) (Steps.map (ι := ι) hι hst)
        exact ⟨δ, hδ.isReturnMap⟩

/-- A single step is not enough to find the connection. -/
example (L : PPL) : (Examples.intIET.induce L (SLengths.ops intArith) 0 1 Examples.intState).toOption.map
    (fun r => (r.1.result, r.1.connection, r.2.1.top, r.2.1.bottom, r.2.2.lengths)) =
    some (.limitReached, none, [1, 2, 0, 3], [3, 2, 1, 0], [5, 5, 3, 2]) := rfl

/-! ### C16 -/

/-- **C16** `induce(0)` (and any negative limit other than -1) changes no length at all. If nothing has been removed then
top and bottom are unchanged; otherwise a label has been removed or the IET has been split. -/
theorem C16_induce_zero (H : LawfulLengths O c ε) {L : PPL} (hL : L.Lawful) {w : World σ T} (h : Reachable H L w)
    {E E' : IET T} {s' : σ} {step : InductionStep T} {fuel : ℕ} {limit : ℤ} (hE : E ∈ w.pieces)
    (hr : E.induce L O fuel limit w.lengths = .ok (step, E', s')) (hlimit : limit ≤ 0 ∧ limit ≠ -1) :
    s' = w.lengths ∧ step.result ≠ .withoutPeriodicTrajectoryAutoSimilar ∧
      (step.result = .limitReached ∨ step.result = .withoutPeriodicTrajectoryBoshernitzan ∨ step.result = .cylinder →
        E'.top = E.top ∧ E'.bottom = E.bottom) ∧
      (step.result = .nonSeparatingConnection →
        ∃ t b l₁ l₂, step.connection = some (b, t) ∧ E.top = t :: E'.top ∧ E.bottom = b :: (l₁ ++ t :: l₂) ∧
          E'.bottom = l₁ ++ b :: l₂ ∧ O.get b w.lengths = O.get t w.lengths) ∧
      (step.result = .separatingConnection →
        ∃ R, step.additional = some R ∧ E.top = E'.top ++ R.top ∧ E.bottom = E'.bottom ++ R.bottom) := by
  obtain ⟨hs, hg⟩ := h.induce hL hE hr
  have hok := (h.good hL hE).ok
  have hv := hok.valid
  cases hs with
  | cylinder => exact ⟨rfl, by simp, by simp, by simp, by simp⟩
  | auto _ h2 => omega
  | @finish E₁ _ _ _ h1 hm hf hlim hinf =>
    obtain ⟨rfl, e1, e2⟩ := hlim (by omega)
    cases hf with
    | separating hcut =>
      refine ⟨rfl, by simp, by simp, by simp, fun _ => ⟨_, rfl, ?_⟩⟩
      have habs : H.abs E₁ w.lengths = H.abs E w.lengths := by simp [LawfulLengths.abs, e1, e2]
      rw [habs] at hcut
      obtain ⟨f1, f2, _⟩ := hcut.facts hv
      exact ⟨f1, f2⟩
    | boshernitzan g1 g2 => exact ⟨rfl, by simp, fun _ => ⟨g1.trans e1, g2.trans e2⟩, by simp, by simp⟩
    | limit g1 g2 => exact ⟨rfl, by simp, fun _ => ⟨g1.trans e1, g2.trans e2⟩, by simp, by simp⟩
    | @nonSeparating E' b t l hirr htop hbot hne hlen hmerge =>
      refine ⟨rfl, by simp, by simp, fun _ => ?_, by simp⟩
      generalize hA : H.abs E₁ w.lengths = A at hmerge
      generalize hB : H.abs E' w.lengths = B at hmerge
      obtain ⟨t', b', top, l₁, l₂, len, heq⟩ := hmerge
      simp only [LawfulLengths.abs, AIET.mk.injEq] at hA hB
      have ht' : t' = t := by have := hA.1.symm.trans htop; simp at this; exact this.1
      have hb' : b' = b := by have := hA.2.1.symm.trans hbot; simp at this; exact this.1
      subst ht' hb'
      have m1 : t' ∈ E.top := by rw [← e1, hA.1]; simp
      have m2 : b' ∈ E.top := hv.perm.mem_iff.mp (by simp [LawfulLengths.abs, ← e2, hbot])
      refine ⟨t', b', l₁, l₂, rfl, by rw [← e1, htop], by rw [← e2, hA.2.1], hB.2.1, ?_⟩
      rw [H.get_spec _ _ hok.inv (hok.dom _ m2), H.get_spec _ _ hok.inv (hok.dom _ m1), hlen]

/-- `induce(0)` on the reducible example splits it. -/
example (L : PPL) : (Examples.redIET.induce L (SLengths.ops Examples.q2Arith) 0 0 Examples.redState).toOption.map
    (fun r => (r.1.result, r.1.connection, r.2.1.top, r.2.1.bottom)) =
    some (.separatingConnection, some (0, 1), [0, 1], [1, 0]) := rfl

/-! ### C19 -/

/-- **C19** `zorichInduction()` neither creates nor destroys periodic points. -/
theorem C19_zorich_periodic (H : LawfulLengths O c ε) {E E' : IET T} {s s' : σ} {r : Bool} (h : H.Ok E s)
    (hr : E.zorichInduction O s = .ok (r, E', s')) {ι : T →+ P} (hι : StrictMono ι) :
    (∃ x, Periodic ((H.abs E s).map ι).Maps x) ↔ ∃ x, Periodic ((H.abs E' s').map ι).Maps x := by
  obtain ⟨r₁, E₁, s₁, h1, h2⟩ := zorichInduction_spec H E s h
  rw [h1] at hr
  cases hr
  obtain ⟨δ, hδ⟩ := RauzyRun.fwd (h.valid.map hι) (RauzyRun.map (ι := ι) hι h2.run)
  exact hδ.periodic_iff

/-- **C19** A call of `induce` neither creates nor destroys periodic points: there is a periodic point before the call iff
there is one afterwards, in the remaining IET or in the IET that was split off. -/
theorem C19_induce_periodic (H : LawfulLengths O c ε) {L : PPL} (hL : L.Lawful) {w : World σ T} (h : Reachable H L w)
    {E E' : IET T} {s' : σ} {step : InductionStep T} {fuel : ℕ} {limit : ℤ} (hE : E ∈ w.pieces)
    (hr : E.induce L O fuel limit w.lengths = .ok (step, E', s')) {ι : T →+ P} (hι : StrictMono ι) :
    (∃ x, Periodic ((H.abs E w.lengths).map ι).Maps x) ↔
      (∃ x, Periodic ((H.abs E' s').map ι).Maps x) ∨
      ∃ R, step.additional = some R ∧ ∃ x, Periodic ((H.abs R s').map ι).Maps x := by
  obtain ⟨hs, hg⟩ := h.induce hL hE hr
  have hv := (h.good hL hE).ok.valid
  cases hs with
  | cylinder => simp
  | auto _ _ hm =>
    obtain ⟨δ, hδ⟩ := Steps.fwd (hv.map hι) (Steps.map (ι := ι) hι hm.steps)
    simpa using hδ.periodic_iff
  | @finish E₁ _ _ _ h1 hm hf =>
    obtain ⟨δ, hδ⟩ := Steps.fwd (hv.map hι) (Steps.map (ι := ι) hι hm.steps)
    have hp := hδ.periodic_iff
    have hv1 := Steps.valid hv hm.steps
    cases hf with
    | @separating E' R k b t hcut =>
      have := IsCut.periodic_iff (hv1.map hι) (hcut.map (ι := ι))
      simp only [Option.some.injEq, exists_eq_left']
      exact hp.trans this
    | nonSeparating _ _ _ _ _ hmerge =>
      obtain ⟨b', hb', hδ'⟩ := MergeTop.fwd (hv1.map hι) (hmerge.map (ι := ι))
      simpa using hp.trans hδ'.periodic_iff
    | boshernitzan g1 g2 =>
      have habs : H.abs E₁ s' = H.abs E' s' := by simp [LawfulLengths.abs, g1, g2]
      simp only [habs] at hp
      simpa using hp
    | limit g1 g2 =>
      have habs : H.abs E₁ s' = H.abs E' s' := by simp [LawfulLengths.abs, g1, g2]
      simp only [habs] at hp
      simpa using hp

end Verif
