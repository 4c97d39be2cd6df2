import Verif.Examples

/-!
# C20, C21, C22: Boshernitzan's criterion
-/

namespace Verif

set_option linter.unusedSectionVars false

variable {σ T ε P : Type} [CommRing T] [LinearOrder T] [IsStrictOrderedRing T] [CommRing P] [LinearOrder P]
  [IsStrictOrderedRing P] {O : LengthsOps σ T} {d : ℕ} {c : T →+ (Fin d → ℚ)}

/-! ### C20 -/

/-- **C20** If `boshernitzanNoPeriodicTrajectory()` returns true then there is no periodic point. -/
theorem C20_no_periodic (H : LawfulLengths O c ε) {L : PPL} (hL : L.Lawful) {w : World σ T} (h : Reachable H L w)
    {E E' : IET T} (hE : E ∈ w.pieces) (hr : E.boshernitzanNoPeriodicTrajectory L O w.lengths = .ok (true, E'))
    {ι : T →+ P} (hι : StrictMono ι) : ¬ ∃ x, Periodic ((H.abs E w.lengths).map ι).Maps x := by
  have hg := h.good hL hE
  obtain ⟨b, h1, h2⟩ := boshernitzanNoPeriodicTrajectory_spec H hL hg.ok hg.cache
  rw [h1] at hr
  cases hr
  rintro ⟨x, hx⟩
  exact (h2.mp rfl).2.2 (relation_of_periodic c hg.ok.valid hι hx)

/-- **C20** If `induce` reports WITHOUT_PERIODIC_TRAJECTORY_BOSHERNITZAN then neither the original nor the resulting IET has
a periodic point. -/
theorem C20_induce_no_periodic (H : LawfulLengths O c ε) {L : PPL} (hL : L.Lawful) {w : World σ T} (h : Reachable H L w)
    {E E' : IET T} {s' : σ} {step : InductionStep T} {fuel : ℕ} {limit : ℤ} (hE : E ∈ w.pieces)
    (hr : E.induce L O fuel limit w.lengths = .ok (step, E', s'))
    (hres : step.result = .withoutPeriodicTrajectoryBoshernitzan) {ι : T →+ P} (hι : StrictMono ι) :
    (¬ ∃ x, Periodic ((H.abs E w.lengths).map ι).Maps x) ∧ ¬ ∃ x, Periodic ((H.abs E' s').map ι).Maps x := by
  have hv := (h.good hL hE).ok.valid
  rcases induce_spec H hL fuel limit E w.lengths (h.good hL hE) with ⟨h1, _⟩ | ⟨st, E₁, s₁, h1, hs, hg, _⟩
  · rw [h1] at hr; cases hr
  rw [h1] at hr
  cases hr
  cases hs with
  | cylinder => cases hres
  | auto => cases hres
  | @finish E₁ _ _ _ h1 hm hf =>
    obtain ⟨δ, hδ⟩ := Steps.fwd (hv.map hι) (Steps.map (ι := ι) hι hm.steps)
    have hp := hδ.periodic_iff
    have hv1 := Steps.valid hv hm.steps
    cases hf with
    | separating => cases hres
    | nonSeparating => cases hres
    | limit => cases hres
    | boshernitzan g1 g2 _ _ hrel _ =>
      have habs : H.abs E₁ s' = H.abs E' s' := by simp [LawfulLengths.abs, g1, g2]
      simp only [habs] at hp hrel hv1
      have key : ¬ ∃ x, Periodic ((H.abs E' s').map ι).Maps x := by
        rintro ⟨x, hx⟩
        exact hrel (relation_of_periodic c hv1 hι hx)
      exact ⟨fun h => key (hp.mp h), key⟩

/-! ### C22 -/

/-- **C22** When the SAF invariant vanishes (and coefficients determine lengths) then the linear program that is skipped has a
non-zero solution, so it would have given the same answer. -/
theorem C22_saf_shortcut (H : LawfulLengths O c ε) (hc : ∀ x, c x = 0 → x = 0) {L : PPL} (hL : L.Lawful) {w : World σ T}
    (h : Reachable H L w) {E F : IET T} (hE : E ∈ w.pieces) {v : List ℚ} (hv : E.safInvariant O w.lengths = .ok (v, F))
    (h0 : ∀ x ∈ v, x = 0) :
    ∃ relations S, E.boshernitzanEquations O w.lengths = .ok relations ∧
      Subspace.ofEquations relations (List.replicate relations.length 0) = .ok S ∧
      S.hasNonZeroNonNegativeVector L = .ok true := by
  have hg := h.good hL hE
  have hval := hg.ok.valid
  have hd : d ≠ 0 := by
    rintro rfl
    have := hval.total_pos
    have h1 := hc (H.abs E w.lengths).total (Subsingleton.elim _ _)
    linarith
  rw [safInvariant_spec H hg.ok hg.cache] at hv
  cases hv
  have hs : ∀ i j, i < j → j < d → (H.abs E w.lengths).saf (coefAt c i) (coefAt c j) = 0 := by
    intro i j hij hj
    have h1 := h0
    unfold safList at h1
    rw [if_neg (by omega)] at h1
    apply h1
    rw [List.mem_map]
    refine ⟨(i, j), ?_, rfl⟩
    simp only [IET.pairs, List.mem_flatMap, List.mem_range, List.mem_map, List.mem_range'_1, Prod.mk.injEq]
    exact ⟨i, by omega, j, by omega, rfl, rfl⟩
  obtain ⟨relations, S, b, q1, q2, q3, q4⟩ := boshernitzanSpace_spec H hL hg.ok hd
  exact ⟨relations, S, q1, q2, by rw [q3, q4.mpr (relation_of_saf_eq_zero hc hval hs)]⟩

/-- Clearing denominators of a relation. -/
theorem posRelation_iff (hc : ∀ x, c x = 0 → x = 0) {A : AIET T} (hA : A.top.Nodup) :
    PosRelation c A ↔ ∃ n : Label → ℕ, (∃ a ∈ A.top, n a ≠ 0) ∧ (A.top.map (fun a => (n a : T) * A.transl a)).sum = 0 := by
  have hcoef : ∀ x : T, (∀ i < d, coefAt c i x = 0) ↔ x = 0 := by
    intro x
    constructor
    · intro h
      apply hc
      funext i
      have := h i i.2
      simpa [coefAt, i.2] using this
    · rintro rfl i _; simp
  have hmul : ∀ (φ : T →+ ℚ) (n : ℕ) (x : T), φ ((n : T) * x) = n * φ x := by
    intro φ n x; rw [← nsmul_eq_mul, map_nsmul, nsmul_eq_mul]
  have hsum : ∀ (φ : T →+ ℚ) (n : Label → ℕ), φ (A.top.map (fun a => (n a : T) * A.transl a)).sum =
      dot (A.top.map (fun a => φ (A.transl a))) (A.top.map (fun a => (n a : ℚ))) := by
    intro φ n
    rw [sum_map_hom φ, dot_map_map]
    congr 1
    apply List.map_congr_left
    intro a _
    rw [hmul]; ring
  constructor
  · rintro ⟨x, x1, x2, ⟨v, x3, x3'⟩, x4⟩
    obtain ⟨D, hD, hD'⟩ := exists_int_multiple x
    have hn : ∀ a, ∃ n : ℕ, (n : ℚ) = D * x.getD (A.top.idxOf a) 0 := by
      intro a
      by_cases hi : A.top.idxOf a < x.length
      · have hm : x.getD (A.top.idxOf a) 0 ∈ x := by
          rw [List.getD_eq_getElem _ _ hi]; exact List.getElem_mem _
        obtain ⟨z, hz⟩ := hD' (D * x.getD (A.top.idxOf a) 0) (by unfold smul; exact List.mem_map.mpr ⟨_, hm, rfl⟩)
        have h0 : (0 : ℚ) ≤ z := by rw [← hz]; exact mul_nonneg (by positivity) (x2 _ hm)
        have h0' : 0 ≤ z := by exact_mod_cast h0
        refine ⟨z.toNat, ?_⟩
        rw [hz]
        have : ((z.toNat : ℤ) : ℚ) = z := by rw [Int.toNat_of_nonneg h0']
        exact_mod_cast this
      · exact ⟨0, by rw [List.getD_eq_default _ _ (by omega)]; simp⟩
    choose n hn using hn
    have hmap : A.top.map (fun a => (n a : ℚ)) = smul D x := by
      unfold smul
      apply List.ext_getElem
      · simp [x1]
      · intro i h1 h2
        simp only [List.length_map] at h1 h2
        simp only [List.getElem_map]
        rw [hn, hA.idxOf_getElem, List.getD_eq_getElem _ _ h2]
    refine ⟨n, ?_, ?_⟩
    · obtain ⟨i, hi, rfl⟩ := List.mem_iff_getElem.mp x3
      have hi' : i < A.top.length := by omega
      refine ⟨A.top[i], List.getElem_mem _, ?_⟩
      intro h0
      have := hn A.top[i]
      rw [hA.idxOf_getElem, List.getD_eq_getElem _ _ hi, h0] at this
      have hD0 : (D : ℚ) ≠ 0 := by positivity
      have h1 : (D : ℚ) * x[i] = 0 := by rw [← this]; simp
      rcases mul_eq_zero.mp h1 with h2 | h2
      · exact hD0 h2
      · exact x3' h2
    · apply (hcoef _).mp
      intro i hi
      rw [hsum, hmap, dot_smul, x4 i hi, mul_zero]
  · rintro ⟨n, ⟨a, ha, hna⟩, hs⟩
    refine ⟨A.top.map (fun a => (n a : ℚ)), by simp, ?_, ⟨n a, List.mem_map.mpr ⟨a, ha, rfl⟩, by exact_mod_cast hna⟩, ?_⟩
    · intro v hv
      obtain ⟨b, _, rfl⟩ := List.mem_map.mp hv
      positivity
    · intro i _
      rw [← hsum, hs, map_zero]

/-- **C22** If coefficients determine lengths then `boshernitzanNoPeriodicTrajectory()` answers precisely the question whether the
translations satisfy no non-trivial relation with non-negative integer coefficients (and there are at least two
intervals).  The shortcut does not change this. -/
theorem C22_exact (H : LawfulLengths O c ε) (hc : ∀ x, c x = 0 → x = 0) {L : PPL} (hL : L.Lawful) {w : World σ T}
    (h : Reachable H L w) {E : IET T} (hE : E ∈ w.pieces) :
    ∃ b E', E.boshernitzanNoPeriodicTrajectory L O w.lengths = .ok (b, E') ∧
      (b = true ↔ 1 < E.top.length ∧ ¬ ∃ n : Label → ℕ, (∃ a ∈ E.top, n a ≠ 0) ∧
        (E.top.map (fun a => (n a : T) * (H.abs E w.lengths).transl a)).sum = 0) := by
  have hg := h.good hL hE
  have hval := hg.ok.valid
  obtain ⟨b, h1, h2⟩ := boshernitzanNoPeriodicTrajectory_spec H hL hg.ok hg.cache
  refine ⟨b, _, h1, ?_⟩
  have hp := posRelation_iff hc (A := H.abs E w.lengths) hval.nodup
  rw [h2]
  constructor
  · rintro ⟨_, q1, q2⟩
    exact ⟨q1, fun h => q2 (hp.mpr h)⟩
  · rintro ⟨q1, q2⟩
    have q2' : ¬ PosRelation c (H.abs E w.lengths) := fun h => q2 (hp.mp h)
    refine ⟨?_, q1, q2'⟩
    intro h0
    apply q2'
    apply relation_of_saf_eq_zero hc hval
    intro i j hij hj
    unfold safList at h0
    rw [if_neg (by omega)] at h0
    apply h0
    rw [List.mem_map]
    refine ⟨(i, j), ?_, rfl⟩
    simp only [IET.pairs, List.mem_flatMap, List.mem_range, List.mem_map, List.mem_range'_1, Prod.mk.injEq]
    exact ⟨i, by omega, j, by omega, rfl, rfl⟩

/-- An irrational rotation: two intervals of lengths `1` and `√2`. -/
def Examples.rotIET : IET Examples.Q2 := .fresh [0, 1] [1, 0]
/-- Its lengths. -/
def Examples.rotState : SLengths Examples.Q2 := ⟨[], [⟨1, 0⟩, ⟨0, 1⟩]⟩

theorem Examples.rot_ok : Examples.hQ2.Ok Examples.rotIET Examples.rotState := Examples.sample_ok _ _ _ _ (by decide)

theorem Examples.rot_reachable : Reachable Examples.hQ2 PPL.ideal ⟨[Examples.rotIET], Examples.rotState⟩ :=
  Examples.sample_reachable _ _ Examples.rot_ok

theorem Examples.q2Coef_faithful : ∀ x, Examples.q2Coef x = 0 → x = 0 := by
  intro x hx
  have h0 := congrFun hx 0
  have h1 := congrFun hx 1
  simp [Examples.q2Coef] at h0 h1
  exact Zsqrtd.ext h0 h1

/-- The criterion detects that the rotation has no periodic points. -/
example : ¬ ∃ x, Periodic ((Examples.hQ2.abs Examples.rotIET Examples.rotState).map (AddMonoidHom.id Examples.Q2)).Maps x := by
  obtain ⟨b, E', h1, h2⟩ := C22_exact Examples.hQ2 Examples.q2Coef_faithful PPL.ideal_lawful Examples.rot_reachable
    (E := Examples.rotIET) (by simp)
  have hb : b = true := by
    rw [h2]
    refine ⟨by decide, ?_⟩
    rintro ⟨n, ⟨a, ha, hn⟩, h⟩
    have t0 : (Examples.hQ2.abs Examples.rotIET Examples.rotState).transl 0 = ⟨0, 1⟩ := by decide
    have t1 : (Examples.hQ2.abs Examples.rotIET Examples.rotState).transl 1 = ⟨-1, 0⟩ := by decide
    have e : (n 0 : Examples.Q2) * ⟨0, 1⟩ + ((n 1 : Examples.Q2) * ⟨-1, 0⟩) = 0 := by
      have : ([0, 1].map (fun a => (n a : Examples.Q2) * (Examples.hQ2.abs Examples.rotIET Examples.rotState).transl a)).sum = 0 := h
      simpa [t0, t1] using this
    have h0 := congrArg Zsqrtd.re e
    have h1 := congrArg Zsqrtd.im e
    simp at h0 h1
    have ha' : a ∈ [0, 1] := ha
    simp at ha'
    rcases ha' with rfl | rfl <;> omega
  subst hb
  exact C20_no_periodic Examples.hQ2 PPL.ideal_lawful Examples.rot_reachable (by simp) h1 (fun _ _ h => h)

/-! ### C21 -/

theorem saddle_sound (H : LawfulLengths O c ε) {L : PPL} (hL : L.Lawful) {E : IET T} {s : σ} (h : H.Ok E s)
    {t b : Label} (ht : t ∈ E.top.reverse.tail) (hb : b ∈ E.bottom.reverse.tail) {ι : T →+ P} (hι : StrictMono ι) :
    ∃ r, E.boshernitzanNoSaddleConnection₂ L O t b s = .ok r ∧
      (r = true → ∀ n, ¬ Iter ((H.abs E s).map ι).Maps n (((H.abs E s).map ι).rightBottom b) (((H.abs E s).map ι).rightTop t)) := by
  have hv := h.valid
  obtain ⟨k₁, k₂, t', e1⟩ := exists_next ht
  obtain ⟨l₁, l₂, b', e2⟩ := exists_next hb
  obtain ⟨r, h1, h2⟩ := boshernitzanNoSaddleConnection₂_spec H hL h e1 e2
  refine ⟨r, h1, ?_⟩
  intro hr n hn
  obtain ⟨h3, h4⟩ := h2.mp hr
  obtain ⟨Ls, m1, m2⟩ := iter_translations n hn
  have r1 : ((H.abs E s).map ι).rightTop t = ι (off (H.len s) E.top t') := by
    have hnd : E.top.Nodup := hv.nodup
    rw [e1] at hnd
    unfold AIET.rightTop AIET.map LawfulLengths.abs
    rw [off_map, ← map_add, e1, off_next _ hnd]
  have r2 : ((H.abs E s).map ι).rightBottom b = ι (off (H.len s) E.bottom b') := by
    have hnd : E.bottom.Nodup := hv.nodup_bottom
    rw [e2] at hnd
    unfold AIET.rightBottom AIET.map LawfulLengths.abs
    rw [off_map, ← map_add, e2, off_next _ hnd]
  rw [r1, r2, sum_map_transl, ← map_add] at m2
  have m3 := hι.injective m2
  apply h4
  refine ⟨counts E.top Ls, by simp [counts], counts_nonneg _ _, ?_⟩
  intro i _
  have hdc := dot_counts hv.nodup (fun a => coefAt c i ((H.abs E s).transl a)) Ls m1
  refine hdc.trans ?_
  rw [← sum_map_hom]
  congr 1
  rw [m3]; ring

/-- **C21** If `boshernitzanNoSaddleConnection(t, b)` returns true then no forward orbit starting at the right end of the bottom
interval `b` ever hits the right end of the top interval `t`. -/
theorem C21_no_saddle_connection (H : LawfulLengths O c ε) {L : PPL} (hL : L.Lawful) {E : IET T} {s : σ} (h : H.Ok E s)
    {t b : Label} (ht : t ∈ E.top.reverse.tail) (hb : b ∈ E.bottom.reverse.tail)
    (hr : E.boshernitzanNoSaddleConnection₂ L O t b s = .ok true) {ι : T →+ P} (hι : StrictMono ι) (n : ℕ) :
    ¬ Iter ((H.abs E s).map ι).Maps n (((H.abs E s).map ι).rightBottom b) (((H.abs E s).map ι).rightTop t) := by
  obtain ⟨r, h1, h2⟩ := saddle_sound H hL h ht hb hι
  rw [h1] at hr
  cases hr
  exact h2 rfl n

/-- **C21** If `boshernitzanNoSaddleConnection()` returns true then the IET satisfies Keane's condition: no orbit of an inner
singularity of the inverse hits an inner singularity. -/
theorem C21_keane (H : LawfulLengths O c ε) {L : PPL} (hL : L.Lawful) {E : IET T} {s : σ} (h : H.Ok E s)
    (hr : E.boshernitzanNoSaddleConnection L O s = .ok true) {ι : T →+ P} (hι : StrictMono ι)
    {t b : Label} (ht : t ∈ E.top.reverse.tail) (hb : b ∈ E.bottom.reverse.tail) (n : ℕ) :
    ¬ Iter ((H.abs E s).map ι).Maps n (((H.abs E s).map ι).rightBottom b) (((H.abs E s).map ι).rightTop t) := by
  have key : ∀ t b, ∃ r, (t ∈ E.top.reverse.tail → b ∈ E.bottom.reverse.tail →
      E.boshernitzanNoSaddleConnection₂ L O t b s = .ok r) := by
    intro t b
    by_cases h1 : t ∈ E.top.reverse.tail ∧ b ∈ E.bottom.reverse.tail
    · obtain ⟨r, h2, _⟩ := saddle_sound H hL h h1.1 h1.2 hι
      exact ⟨r, fun _ _ => h2⟩
    · exact ⟨true, fun h2 h3 => absurd ⟨h2, h3⟩ h1⟩
  choose r hr' using key
  unfold IET.boshernitzanNoSaddleConnection at hr
  by_cases h1 : E.size ≤ 1
  · rw [if_pos h1] at hr; cases hr
  · rw [if_neg h1] at hr
    rw [allM_spec _ (fun t => E.bottom.reverse.tail.all (fun b => r t b))] at hr
    · have hall := Except.ok.inj hr
      rw [List.all_eq_true] at hall
      have := hall t ht
      rw [List.all_eq_true] at this
      have := this b hb
      apply C21_no_saddle_connection H hL h ht hb _ hι n
      rw [hr' t b ht hb, this]
    · intro t' ht'
      exact allM_spec _ _ _ (fun b' hb' => hr' t' b' ht' hb')

/-- **C21** On a valid IET the test returns for all labels that are not last; for a last label it throws. -/
theorem C21_returns (H : LawfulLengths O c ε) {L : PPL} (hL : L.Lawful) {E : IET T} {s : σ} (h : H.Ok E s) :
    (∃ r, E.boshernitzanNoSaddleConnection L O s = .ok r) ∧
    (∀ t ∈ E.top.reverse.tail, ∀ b ∈ E.bottom.reverse.tail, ∃ r, E.boshernitzanNoSaddleConnection₂ L O t b s = .ok r) ∧
    (∀ t b, E.top.getLast? = some t → E.boshernitzanNoSaddleConnection₂ L O t b s = .error .invalidArgument) ∧
    (∀ t ∈ E.top.reverse.tail, ∀ b, E.bottom.getLast? = some b →
      E.boshernitzanNoSaddleConnection₂ L O t b s = .error .invalidArgument) := by
  have hv := h.valid
  have one : ∀ t ∈ E.top.reverse.tail, ∀ b ∈ E.bottom.reverse.tail, ∃ r, E.boshernitzanNoSaddleConnection₂ L O t b s = .ok r := by
    intro t ht b hb
    obtain ⟨r, h1, _⟩ := saddle_sound H hL h ht hb (ι := AddMonoidHom.id T) (fun _ _ h => h)
    exact ⟨r, h1⟩
  have last : ∀ (l : List Label) (t : Label), l.Nodup → l.getLast? = some t → IET.nextLabel t l = .ok none := by
    intro l t hn hl
    obtain ⟨l', rfl⟩ := List.getLast?_eq_some_iff.mp hl
    apply nextLabel_last
    rw [List.nodup_append] at hn
    exact fun h => hn.2.2 t h t (by simp) rfl
  refine ⟨?_, one, ?_, ?_⟩
  · unfold IET.boshernitzanNoSaddleConnection
    by_cases h1 : E.size ≤ 1
    · exact ⟨false, by rw [if_pos h1]⟩
    · rw [if_neg h1]
      have key : ∀ t b, ∃ r, (t ∈ E.top.reverse.tail → b ∈ E.bottom.reverse.tail →
          E.boshernitzanNoSaddleConnection₂ L O t b s = .ok r) := by
        intro t b
        by_cases h1 : t ∈ E.top.reverse.tail ∧ b ∈ E.bottom.reverse.tail
        · obtain ⟨r, h2⟩ := one t h1.1 b h1.2
          exact ⟨r, fun _ _ => h2⟩
        · exact ⟨true, fun h2 h3 => absurd ⟨h2, h3⟩ h1⟩
      choose r hr' using key
      refine ⟨_, allM_spec _ (fun t => E.bottom.reverse.tail.all (fun b => r t b)) _ ?_⟩
      intro t' ht'
      exact allM_spec _ _ _ (fun b' hb' => hr' t' b' ht' hb')
  · intro t b ht
    unfold IET.boshernitzanNoSaddleConnection₂ IET.boshernitzanSaddleConnectionValues
    have hn : IET.nextLabel t E.top = .ok none := last E.top t hv.nodup ht
    simp only [hn, bind, Except.bind]
  · intro t ht b hb
    unfold IET.boshernitzanNoSaddleConnection₂ IET.boshernitzanSaddleConnectionValues
    have hn : IET.nextLabel b E.bottom = .ok none := last E.bottom b hv.nodup_bottom hb
    obtain ⟨k₁, k₂, t', e1⟩ := exists_next ht
    have hn' : IET.nextLabel t E.top = .ok (some t') := by
      have hnd : E.top.Nodup := hv.nodup
      rw [e1] at hnd ⊢
      apply nextLabel_spec
      rw [List.nodup_append] at hnd
      exact fun h => hnd.2.2 t h t (by simp) rfl
    simp only [hn, hn', bind, Except.bind]

/-- For the rotation, the test for the only pair of labels says that there is no saddle connection. -/
theorem Examples.rot_no_saddle : Examples.rotIET.boshernitzanNoSaddleConnection₂ PPL.ideal (SLengths.ops Examples.q2Arith) 0 1
    Examples.rotState = .ok true := by
  obtain ⟨r, h1, h2⟩ := boshernitzanNoSaddleConnection₂_spec Examples.hQ2 PPL.ideal_lawful Examples.rot_ok (t := 0) (b := 1)
    (t' := 1) (b' := 0) (k₁ := []) (k₂ := []) (l₁ := []) (l₂ := []) rfl rfl
  rw [h1]
  congr 1
  rw [h2]
  have hδ : off (Examples.hQ2.len Examples.rotState) Examples.rotIET.top 1 -
      off (Examples.hQ2.len Examples.rotState) Examples.rotIET.bottom 0 = ⟨1, -1⟩ := by decide
  rw [hδ]
  constructor
  · intro h
    have := congrFun h 0
    simp [Examples.q2Coef] at this
  · rintro ⟨x, h1, h2, h3⟩
    have h4 := h3 0 (by decide)
    match x, h1 with
    | [a, b], _ =>
      have t0 : (Examples.hQ2.abs Examples.rotIET Examples.rotState).transl 0 = ⟨0, 1⟩ := by decide
      have t1 : (Examples.hQ2.abs Examples.rotIET Examples.rotState).transl 1 = ⟨-1, 0⟩ := by decide
      have e : ([0, 1] : List Label).map (fun a => coefAt Examples.q2Coef 0
        ((Examples.hQ2.abs Examples.rotIET Examples.rotState).transl a)) = [0, -1] := by
        rw [List.map_cons, List.map_cons, List.map_nil]
        erw [t0, t1]
        simp [coefAt, Examples.q2Coef]
      have h5 : dot [0, -1] [a, b] = 1 := by
        have : dot (([0, 1] : List Label).map (fun a => coefAt Examples.q2Coef 0
          ((Examples.hQ2.abs Examples.rotIET Examples.rotState).transl a))) [a, b] = coefAt Examples.q2Coef 0 ⟨1, -1⟩ := h4
        rw [e] at this
        simpa [coefAt, Examples.q2Coef] using this
      have hb : 0 ≤ b := h2 b (by simp)
      simp [dot] at h5
      linarith

/-- So the orbit of `√2` never meets the singularity `1` of the rotation. -/
example (n : ℕ) : ¬ Iter ((Examples.hQ2.abs Examples.rotIET Examples.rotState).map (AddMonoidHom.id Examples.Q2)).Maps n
    (((Examples.hQ2.abs Examples.rotIET Examples.rotState).map (AddMonoidHom.id Examples.Q2)).rightBottom 1)
    (((Examples.hQ2.abs Examples.rotIET Examples.rotState).map (AddMonoidHom.id Examples.Q2)).rightTop 0) :=
  C21_no_saddle_connection Examples.hQ2 PPL.ideal_lawful Examples.rot_ok (by decide) (by decide) Examples.rot_no_saddle
    (fun _ _ h => h) n

end Verif
