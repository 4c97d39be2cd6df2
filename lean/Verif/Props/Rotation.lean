import Verif.Proofs.Rotation

/-!
# C102: Boshernitzan's criterion and the SAF invariant decide whether an exchange of two intervals is periodic
-/

namespace Verif

set_option linter.unusedSectionVars false

variable {σ T ε P : Type} [CommRing T] [LinearOrder T] [IsStrictOrderedRing T] [CommRing P] [LinearOrder P]
  [IsStrictOrderedRing P] {O : LengthsOps σ T} {d : ℕ} {c : T →+ (Fin d → ℚ)}

/-- **C102** For an IET that exchanges two intervals, `boshernitzanNoPeriodicTrajectory()` returns true exactly if there is no
periodic point and false exactly if all points are periodic; the latter is the case exactly if the SAF invariant is zero. -/
theorem C102_rotation (H : LawfulLengths O c ε) (hc : ∀ x, c x = 0 → x = 0) {L : PPL} (hL : L.Lawful) {w : World σ T}
    (h : Reachable H L w) {E : IET T} (hE : E ∈ w.pieces) {a b : Label} (htop : E.top = [a, b]) (hbottom : E.bottom = [b, a])
    {ι : T →+ P} (hι : StrictMono ι) :
    ∃ (r : Bool) (E' : IET T) (v : List ℚ) (F : IET T), E.boshernitzanNoPeriodicTrajectory L O w.lengths = .ok (r, E') ∧
      E.safInvariant O w.lengths = .ok (v, F) ∧
      (r = true ↔ ¬ ∃ x, Periodic ((H.abs E w.lengths).map ι).Maps x) ∧
      (r = false ↔ ∀ x, 0 ≤ x → x < ((H.abs E w.lengths).map ι).total → Periodic ((H.abs E w.lengths).map ι).Maps x) ∧
      (r = false ↔ ∀ u ∈ v, u = 0) := by
  have hg := h.good hL hE
  have hval := hg.ok.valid
  have hA : H.abs E w.lengths = ⟨[a, b], [b, a], H.len w.lengths⟩ := by simp [LawfulLengths.abs, htop, hbottom]
  have hsaf := safInvariant_spec H hg.ok hg.cache
  obtain ⟨r, h1, h2⟩ := boshernitzanNoPeriodicTrajectory_spec H hL hg.ok hg.cache
  have hp := posRelation_iff hc (A := H.abs E w.lengths) hval.nodup
  rw [hA] at hval hp h2
  have hab : a ≠ b := by simpa using hval.nodup
  have ha := hval.pos a (by simp)
  have hb := hval.pos b (by simp)
  have hιp : ∀ {t : T}, 0 < t → 0 < ι t := fun ht => by simpa using hι ht
  -- a relation between the lengths makes everything periodic
  have key : r = false → (∀ x, 0 ≤ x → x < ((H.abs E w.lengths).map ι).total → Periodic ((H.abs E w.lengths).map ι).Maps x) ∧
      ∀ u ∈ safList c (H.abs E w.lengths), u = 0 := by
    intro hr
    have hrel : PosRelation c (AIET.mk [a, b] [b, a] (H.len w.lengths)) := by
      by_contra hno
      by_cases h0 : ∀ x ∈ safList c (AIET.mk [a, b] [b, a] (H.len w.lengths)), x = 0
      · obtain ⟨b', E'', q1, q2⟩ := C22_exact H hc hL h hE
        rw [h1] at q1
        cases q1
        have : r = true := q2.mpr ⟨by simp [htop], fun q => hno (hp.mpr (by rw [hA, htop] at q; exact q))⟩
        rw [hr] at this
        cases this
      · have : r = true := h2.mpr ⟨h0, by simp [htop], hno⟩
        rw [hr] at this
        cases this
    obtain ⟨n, hn, hs⟩ := hp.mp hrel
    obtain ⟨n0, e⟩ := rotation_relation hab ha hb hn hs
    refine ⟨fun x x0 x1 => ?_, by rw [hA]; exact rotation_saf hab n0 e⟩
    rw [hA] at x1 ⊢
    refine rotation_periodic hab (len := fun l => ι (H.len w.lengths l)) (hιp ha) (hιp hb) n0 (m := n b) ?_ x0
      (by simpa [AIET.total, AIET.map, sumLen] using x1)
    have := congrArg ι (show n a • H.len w.lengths b = n b • H.len w.lengths a by simpa [nsmul_eq_mul] using e)
    rw [map_nsmul, map_nsmul] at this
    simpa [nsmul_eq_mul] using this
  have htot : 0 < ((H.abs E w.lengths).map ι).total := by
    rw [hA]
    simp only [AIET.total, AIET.map, sumLen]
    have := hιp ha
    have := hιp hb
    linarith
  have hnp : r = true → ¬ ∃ x, Periodic ((H.abs E w.lengths).map ι).Maps x := by
    rintro rfl
    exact C20_no_periodic H hL h hE h1 hι
  refine ⟨r, _, _, _, h1, hsaf, ⟨hnp, fun q => ?_⟩, ⟨fun q => (key q).1, fun q => ?_⟩, fun q => (key q).2, fun q => ?_⟩
  · cases r
    · exact absurd ⟨0, (key rfl).1 0 le_rfl htot⟩ q
    · rfl
  · cases r
    · rfl
    · exact absurd ⟨0, q 0 le_rfl htot⟩ (hnp rfl)
  · cases r
    · rfl
    · rw [hA] at q
      exact absurd q (h2.mp rfl).1

/-- The rotation with lengths `1` and `√2` has no periodic points since its SAF invariant is not zero. -/
example : (∃ E', Examples.rotIET.boshernitzanNoPeriodicTrajectory PPL.ideal (SLengths.ops Examples.q2Arith) Examples.rotState = .ok (true, E')) ∧
    ¬ ∃ x, Periodic ((Examples.hQ2.abs Examples.rotIET Examples.rotState).map (AddMonoidHom.id Examples.Q2)).Maps x := by
  obtain ⟨r, E', v, F, h1, h2, h3, h4, h5⟩ := C102_rotation Examples.hQ2 Examples.q2Coef_faithful PPL.ideal_lawful
    Examples.rot_reachable (E := Examples.rotIET) (by simp) (a := 0) (b := 1) rfl rfl (ι := AddMonoidHom.id _) (fun _ _ h => h)
  have hv : v = [2] := by
    have e : (Examples.rotIET.safInvariant (SLengths.ops Examples.q2Arith) Examples.rotState).map Prod.fst = .ok [2] := by decide +kernel
    have h2' : Examples.rotIET.safInvariant (SLengths.ops Examples.q2Arith) Examples.rotState = .ok (v, F) := h2
    rw [h2'] at e
    exact Except.ok.inj e
  have hr : r = true := by
    cases r
    · have := h5.mp rfl 2 (by simp [hv])
      norm_num at this
    · rfl
  subst hr
  exact ⟨⟨E', h1⟩, h3.mp rfl⟩

/-- Intervals of lengths `4` and `6`: the SAF invariant is zero, so all points are periodic. -/
example (x : ℚ) (h0 : 0 ≤ x) (h1 : x < 10) : Periodic (AIET.mk [0, 1] [1, 0] (fun l => (([4, 6] : List ℤ).getD l 0 : ℚ))).Maps x := by
  obtain ⟨r, E', v, F, -, g2, -, g4, g5⟩ := C102_rotation Examples.hInt (fun x hx => by simpa [intCoef] using congrFun hx 0)
    PPL.ideal_lawful (Examples.sample_reachable Examples.hInt PPL.ideal (top := [0, 1]) (bottom := [1, 0]) (s := ⟨[], [4, 6]⟩)
      (Examples.sample_ok _ _ _ _ (by decide))) (E := IET.fresh [0, 1] [1, 0]) (by simp) (a := 0) (b := 1) rfl rfl
    (ι := Int.castAddHom ℚ) Int.cast_strictMono
  have hv : v = [] := by
    have e : ((IET.fresh [0, 1] [1, 0] : IET ℤ).safInvariant (SLengths.ops intArith) ⟨[], [4, 6]⟩).map Prod.fst = .ok [] := by decide +kernel
    have g2' : (IET.fresh [0, 1] [1, 0] : IET ℤ).safInvariant (SLengths.ops intArith) ⟨[], [4, 6]⟩ = .ok (v, F) := g2
    rw [g2'] at e
    exact Except.ok.inj e
  refine g4.mp (g5.mpr (by simp [hv])) x h0 ?_
  show x < ((4 : ℤ) : ℚ) + (((6 : ℤ) : ℚ) + 0)
  norm_num
  exact h1

end Verif
