import Verif.Props.AllPeriodic
import Verif.Props.FewSimilar

/-!
# C111: What `decompose()` finds when it returns true, in particular for IETs with at most three intervals
-/

namespace Verif

set_option linter.unusedSectionVars false

variable {σ T ε P : Type} [CommRing T] [LinearOrder T] [IsStrictOrderedRing T] [Field P] [LinearOrder P]
  [IsStrictOrderedRing P] {O : LengthsOps σ T} {d : ℕ} {c : T →+ (Fin d → ℚ)}

/-- When all points are periodic then every component has a periodic point. -/
theorem DReach.comp_periodic (H : LawfulLengths O c ε) {L : PPL} (hL : L.Lawful) {E : IET T} {s : σ} (hE : H.Ok E s) {D : Decomp σ T} {steps : List DStep}
    (h : DReach L O E s D steps) {ι : T →+ P} (hι : StrictMono ι)
    (hper : ∀ y, 0 ≤ y → y < ((H.abs E s).map ι).total → Periodic ((H.abs E s).map ι).Maps y) {x : Comp T} (hx : x ∈ D.comps) :
    ∃ y, Periodic ((H.abs x.iet D.lengths.inner).map ι).Maps y := by
  obtain ⟨os, ho, hcov⟩ := C36_covers H hL hE h hι
  obtain ⟨i, hi, e⟩ := List.mem_iff_getElem.mp hx
  have hmem : (os[i]'(by omega), (H.abs x.iet D.lengths.inner).map ι) ∈ os.zip (D.comps.map (fun x => (H.abs x.iet D.lengths.inner).map ι)) := by
    rw [List.mem_iff_getElem]
    exact ⟨i, by simp; omega, by simp [e]⟩
  exact hcov.piece_periodic hper hmem

/-- What follows when all components are known to be a cylinder or without periodic trajectory, and the latter is correct. -/
theorem DReach.exact (H : LawfulLengths O c ε) {L : PPL} (hL : L.Lawful) {E : IET T} {s : σ} (hE : H.Ok E s) {D' : Decomp σ T} {steps : List DStep}
    (h' : DReach L O E s D' steps) {ι : T →+ P} (hι : StrictMono ι)
    (hmark : ∀ x ∈ D'.comps, x.cylinder = some true ∨ x.withoutPeriodicTrajectory = some true)
    (hwpt : ∀ x ∈ D'.comps, x.withoutPeriodicTrajectory = some true → ¬ ∃ y, Periodic ((H.abs x.iet D'.lengths.inner).map ι).Maps y) :
    (∀ x ∈ D'.comps, x.cylinder = some true →
      ∀ y, 0 ≤ y → y < ((H.abs x.iet D'.lengths.inner).map ι).total → Periodic ((H.abs x.iet D'.lengths.inner).map ι).Maps y) ∧
    ((∃ y, Periodic ((H.abs E s).map ι).Maps y) ↔ ∃ x ∈ D'.comps, x.cylinder = some true) ∧
    ((∀ y, 0 ≤ y → y < ((H.abs E s).map ι).total → Periodic ((H.abs E s).map ι).Maps y) ↔ ∀ x ∈ D'.comps, x.cylinder = some true) := by
  have hinv := h'.inv hL H (ι := AddMonoidHom.id T) (fun _ _ h => h) hE
  have hvalid : ∀ x ∈ D'.comps, ((H.abs x.iet D'.lengths.inner).map ι).Valid := fun x hx => (hinv.good x hx).ok.valid.map hι
  have hcyl : ∀ x ∈ D'.comps, x.cylinder = some true →
      ∀ y, 0 ≤ y → y < ((H.abs x.iet D'.lengths.inner).map ι).total → Periodic ((H.abs x.iet D'.lengths.inner).map ι).Maps y := by
    intro x hx q y y0 y1
    have hv := hvalid x hx
    obtain ⟨a, ha⟩ := List.length_eq_one_iff.mp ((hinv.flags x hx).cylinder q)
    have ha' : ((H.abs x.iet D'.lengths.inner).map ι).top = [a] := ha
    have hb' : ((H.abs x.iet D'.lengths.inner).map ι).bottom = [a] := by
      have := hv.perm
      rw [ha'] at this
      exact List.perm_singleton.mp this
    refine .single ⟨a, ?_, ?_, ?_, ?_⟩
    · exact ha' ▸ List.mem_singleton.mpr rfl
    · show off _ ((H.abs x.iet D'.lengths.inner).map ι).top a ≤ y
      rw [ha']; simpa [off] using y0
    · show y < off _ ((H.abs x.iet D'.lengths.inner).map ι).top a + _
      have e : ((H.abs x.iet D'.lengths.inner).map ι).total = ((H.abs x.iet D'.lengths.inner).map ι).len a := by
        simp only [AIET.total, ha']
        simp [sumLen]
      have y1' : y < ((H.abs x.iet D'.lengths.inner).map ι).total := y1
      rw [e] at y1'
      rw [ha']; simpa [off] using y1'
    · show y = y - off _ ((H.abs x.iet D'.lengths.inner).map ι).top a + off _ ((H.abs x.iet D'.lengths.inner).map ι).bottom a
      rw [ha', hb']; simp [off]
  have hper : ∀ x ∈ D'.comps, x.cylinder = some true ↔ ∃ y, Periodic ((H.abs x.iet D'.lengths.inner).map ι).Maps y := by
    intro x hx
    refine ⟨fun q => ⟨0, hcyl x hx q 0 le_rfl (hvalid x hx).total_pos⟩, fun hy => ?_⟩
    rcases hmark x hx with q | q
    · exact q
    · exact absurd hy (hwpt x hx q)
  refine ⟨hcyl, ?_, fun hall x hx => ?_, fun hall y y0 y1 => ?_⟩
  · refine (C36_periodic H hL hE h' hι).trans ⟨?_, ?_⟩
    · rintro ⟨x, hx, hy⟩
      exact ⟨x, hx, (hper x hx).mpr hy⟩
    · rintro ⟨x, hx, q⟩
      exact ⟨x, hx, (hper x hx).mp q⟩
  · exact (hper x hx).mpr (h'.comp_periodic H hL hE hι hall hx)
  · exact C109_cylinders H hL hE h' hall hι y0 y1

/-- **C111** Let `decompose()` return true for any IET, with any limit and from any state.  Unless WITHOUT_PERIODIC_TRAJECTORY_AUTO_SIMILAR has been reported on the way (which
is not sound, see C23), every component is either known to be a cylinder and consists of periodic points, or it is known to be without periodic trajectory and has no
periodic point.  Then the IET has a periodic point exactly if there is a cylinder, and all its points are periodic exactly if all components are cylinders. -/
theorem C111_exact (H : LawfulLengths O c ε) {L : PPL} (hL : L.Lawful) {E : IET T} {s : σ} (hE : H.Ok E s) {D D' : Decomp σ T} {steps : List DStep}
    (h : DReach L O E s D steps) {limit : ℤ} {fuel : ℕ} (hr : D.decompose L O Decomp.defaultTarget limit fuel = .ok (true, D')) {ι : T →+ P}
    (hι : StrictMono ι) :
    ∃ steps', DReach L O E s D' (steps ++ steps') ∧ ((∀ st ∈ steps ++ steps', st.result ≠ .withoutPeriodicTrajectoryAutoSimilar) →
    (∀ x ∈ D'.comps,
      (x.cylinder = some true ∧ x.withoutPeriodicTrajectory = some false ∧
        ∀ y, 0 ≤ y → y < ((H.abs x.iet D'.lengths.inner).map ι).total → Periodic ((H.abs x.iet D'.lengths.inner).map ι).Maps y) ∨
      (x.cylinder = some false ∧ x.withoutPeriodicTrajectory = some true ∧ ¬ ∃ y, Periodic ((H.abs x.iet D'.lengths.inner).map ι).Maps y)) ∧
    ((∃ y, Periodic ((H.abs E s).map ι).Maps y) ↔ ∃ x ∈ D'.comps, x.cylinder = some true) ∧
    ((∀ y, 0 ≤ y → y < ((H.abs E s).map ι).total → Periodic ((H.abs E s).map ι).Maps y) ↔ ∀ x ∈ D'.comps, x.cylinder = some true)) := by
  obtain ⟨steps', h', -, -⟩ := C38_target H hL hE h hr
  refine ⟨steps', h', fun hauto => ?_⟩
  have hflags := C38_default H hL hE h hr
  have hwpt := fun x (hx : x ∈ D'.comps) q => C37_withoutPeriodicTrajectory_partial H hL hE h' hauto hx q hι
  obtain ⟨k1, k2⟩ := h'.exact H hL hE hι (fun x hx => (hflags x hx).imp (fun q => q.1) (fun q => q.2)) hwpt
  refine ⟨fun x hx => ?_, k2⟩
  rcases hflags x hx with ⟨q1, q2⟩ | ⟨q1, q2⟩
  · exact .inl ⟨q1, q2, k1 x hx q1⟩
  · exact .inr ⟨q1, q2, hwpt x hx q2⟩

/-- **C111** The same in any state in which all components are known to be cylinders or without periodic trajectory, however it has been reached, provided that
AUTO_SIMILAR has only been reported for components that were aligned with the state which the similarity tracker remembers (see C23). -/
theorem C111_marked [Archimedean P] (H : LawfulLengths O c ε) {L : PPL} (hL : L.Lawful) {E : IET T} {s : σ} (hE : H.Ok E s) {D : Decomp σ T}
    {steps : List DStep} (h : DReachOrdered L O E s D steps) (hmark : ∀ x ∈ D.comps, x.cylinder = some true ∨ x.withoutPeriodicTrajectory = some true)
    {ι : T →+* P} (hι : StrictMono ι) :
    ((∃ y, Periodic ((H.abs E s).map ι).Maps y) ↔ ∃ x ∈ D.comps, x.cylinder = some true) ∧
    ((∀ y, 0 ≤ y → y < ((H.abs E s).map ι).total → Periodic ((H.abs E s).map ι).Maps y) ↔ ∀ x ∈ D.comps, x.cylinder = some true) :=
  (h.reach.exact H hL hE (ι := (ι : T →+ P)) hι hmark (fun _ hx q => C37_selfSimilar_partial H hL hE h hx q hι)).2

/-- **C111** Let `decompose()` return true, with any limit and from any state, for an IET with at most three intervals.  Then every component is either known to be a
cylinder and consists of periodic points, or it is known to be without periodic trajectory and has no periodic point.  The IET has a periodic point exactly if there is a
cylinder, and all its points are periodic exactly if all components are cylinders. -/
theorem C111_decompose [Archimedean P] (H : LawfulLengths O c ε) (hc : ∀ x, c x = 0 → x = 0) {L : PPL} (hL : L.Lawful) {E : IET T} {s : σ}
    (hE : H.Ok E s) (h3 : E.top.length ≤ 3) {D D' : Decomp σ T} {steps : List DStep} (h : DReach L O E s D steps) {limit : ℤ} {fuel : ℕ}
    (hr : D.decompose L O Decomp.defaultTarget limit fuel = .ok (true, D')) {ι : T →+* P} (hι : StrictMono ι) :
    (∀ x ∈ D'.comps,
      (x.cylinder = some true ∧ x.withoutPeriodicTrajectory = some false ∧
        ∀ y, 0 ≤ y → y < ((H.abs x.iet D'.lengths.inner).map ι).total → Periodic ((H.abs x.iet D'.lengths.inner).map ι).Maps y) ∨
      (x.cylinder = some false ∧ x.withoutPeriodicTrajectory = some true ∧ ¬ ∃ y, Periodic ((H.abs x.iet D'.lengths.inner).map ι).Maps y)) ∧
    ((∃ y, Periodic ((H.abs E s).map ι).Maps y) ↔ ∃ x ∈ D'.comps, x.cylinder = some true) ∧
    ((∀ y, 0 ≤ y → y < ((H.abs E s).map ι).total → Periodic ((H.abs E s).map ι).Maps y) ↔ ∀ x ∈ D'.comps, x.cylinder = some true) := by
  obtain ⟨steps', h', q⟩ := C111_exact H hL hE h hr (ι := (ι : T →+ P)) hι
  exact q (C110_decompositionStep H hc hL hE h3 h' hι)

/-- **C111** The answers do not depend on how the IET has been decomposed: neither on the limits, the order of the calls, the implementation of polyhedra, nor on the type of
the lengths, as long as both IETs are the same map over the field `P`. -/
theorem C111_agree [Archimedean P] {σ' T' ε' : Type} [CommRing T'] [LinearOrder T'] [IsStrictOrderedRing T'] {O' : LengthsOps σ' T'} {d' : ℕ}
    {c' : T' →+ (Fin d' → ℚ)} (H : LawfulLengths O c ε) (H' : LawfulLengths O' c' ε') (hc : ∀ x, c x = 0 → x = 0) (hc' : ∀ x, c' x = 0 → x = 0)
    {L L' : PPL} (hL : L.Lawful) (hL' : L'.Lawful) {E : IET T} {E' : IET T'} {s : σ} {s' : σ'} (hE : H.Ok E s) (hE' : H'.Ok E' s')
    (h3 : E.top.length ≤ 3) (h3' : E'.top.length ≤ 3) {D D₁ : Decomp σ T} {D' D₁' : Decomp σ' T'} {steps steps' : List DStep}
    (h : DReach L O E s D steps) (h' : DReach L' O' E' s' D' steps') {limit limit' : ℤ} {fuel fuel' : ℕ}
    (hr : D.decompose L O Decomp.defaultTarget limit fuel = .ok (true, D₁)) (hr' : D'.decompose L' O' Decomp.defaultTarget limit' fuel' = .ok (true, D₁'))
    {ι : T →+* P} (hι : StrictMono ι) {ι' : T' →+* P} (hι' : StrictMono ι')
    (hmaps : ((H.abs E s).map ι).Maps = ((H'.abs E' s').map ι').Maps) (htotal : ((H.abs E s).map ι).total = ((H'.abs E' s').map ι').total) :
    ((∃ x ∈ D₁.comps, x.cylinder = some true) ↔ ∃ x ∈ D₁'.comps, x.cylinder = some true) ∧
    ((∀ x ∈ D₁.comps, x.cylinder = some true) ↔ ∀ x ∈ D₁'.comps, x.cylinder = some true) := by
  obtain ⟨-, q1, q2⟩ := C111_decompose H hc hL hE h3 h hr hι
  obtain ⟨-, q1', q2'⟩ := C111_decompose H' hc' hL' hE' h3' h' hr' hι'
  rw [← q1, ← q1', ← q2, ← q2', hmaps, htotal]
  exact ⟨Iff.rfl, Iff.rfl⟩

open Examples in
/-- The only component of the transformation of Arnoux and Yoccoz, with seven intervals, is recognized by its self-similarity. -/
example : ∃ D steps, DReachOrdered PPL.ideal (SLengths.ops cubicArith) cubicIET cubicState D steps ∧
    (∀ y ∈ D.comps, y.cylinder = some true ∨ y.withoutPeriodicTrajectory = some true) ∧
    (∃ st ∈ steps, st.result = .withoutPeriodicTrajectoryAutoSimilar) ∧
    ((∃ y, Periodic ((hCubic.abs cubicIET cubicState).map Cubic.toReal).Maps y) ↔ ∃ x ∈ D.comps, x.cylinder = some true) := by
  have h := cubicDecomp_run
  unfold recognized at h
  split at h
  · rename_i step D hr
    rw [Bool.and_eq_true] at h
    obtain ⟨h1, h2⟩ := h
    have h1 := of_decide_eq_true h1
    split at h2
    · rename_i x hx
      have h2 := of_decide_eq_true h2
      have h0 : Decomp.make (SLengths.ops cubicArith) cubicIET cubicState = .ok cubicDecomp := by
        obtain ⟨D₀, g1, g2, g3, _⟩ := Decomp.make_spec hCubic (ι := AddMonoidHom.id Cubic) (fun _ _ h => h) cubic_ok
        rw [g1]
        simp only [Decomp.make, bind, Except.bind, pure, Except.pure] at g1
        split at g1 <;> cases g1
        cases g2
        rfl
      have hd := DReachOrdered.step (step := step) (D' := D) 0 18 0 (.init h0) hr (by
        intro _ y hy
        rw [hx] at hy
        cases hy
        exact .of_eq h2.1)
      have hmark : ∀ y ∈ D.comps, y.cylinder = some true ∨ y.withoutPeriodicTrajectory = some true := by
        intro y hy
        rw [hx] at hy
        rw [List.mem_singleton.mp hy]
        exact .inr h2.2
      exact ⟨D, _, hd, hmark, ⟨step, by simp, h1⟩, (C111_marked hCubic PPL.ideal_lawful cubic_ok hd hmark Cubic.toReal_strictMono).1⟩
    · cases h2
  · cases h

/-- Four intervals of lengths `5`, `2`, `7`, `3` in reversed order: the call returns true. -/
example : ∃ D D', ∃ steps' : List DStep, Decomp.make (SLengths.ops intArith) (IET.fresh [0, 1, 2, 3] [3, 2, 1, 0]) ⟨[], [5, 2, 7, 3]⟩ = .ok D ∧
    D.decompose PPL.ideal (SLengths.ops intArith) Decomp.defaultTarget (-1) 35 = .ok (true, D') ∧
    ((∀ st ∈ steps', st.result ≠ .withoutPeriodicTrajectoryAutoSimilar) →
      ∃ y, Periodic ((Examples.hInt.abs (IET.fresh [0, 1, 2, 3] [3, 2, 1, 0]) ⟨[], [5, 2, 7, 3]⟩).map (Int.castAddHom ℚ)).Maps y) := by
  have hok : Examples.hInt.Ok (IET.fresh [0, 1, 2, 3] [3, 2, 1, 0]) ⟨[], [5, 2, 7, 3]⟩ := Examples.sample_ok _ _ _ _ (by decide)
  obtain ⟨D, h1, -⟩ := Decomp.make_spec Examples.hInt (ι := AddMonoidHom.id ℤ) (fun _ _ h => h) hok
  obtain ⟨D', h2, h3⟩ := C39_decompose Examples.hInt PPL.ideal_lawful hok (u := 1) (by norm_num) (k := fun a => [5, 2, 7, 3].getD a 0)
    (by decide) (by decide) (.init h1) (fuel := 35) (by decide)
  obtain ⟨steps', h4, h5⟩ := C111_exact Examples.hInt PPL.ideal_lawful hok (.init h1) h2 (ι := Int.castAddHom ℚ) (fun _ _ h => by simpa using h)
  refine ⟨D, D', steps', h1, h2, fun hauto => ?_⟩
  have := (h5 (by simpa using hauto)).2.2.mpr (fun x hx => (h3 x hx).1)
  exact ⟨0, this 0 le_rfl (hok.valid.map (ι := Int.castAddHom ℚ) (fun _ _ h => by simpa using h)).total_pos⟩

/-- Lengths `5`, `2`, `7` in reversed order: the call returns true. -/
example : ∃ D D' fuel, Decomp.make (SLengths.ops intArith) (IET.fresh [0, 1, 2] [2, 1, 0]) ⟨[], [5, 2, 7]⟩ = .ok D ∧
    D.decompose PPL.ideal (SLengths.ops intArith) Decomp.defaultTarget (-1) fuel = .ok (true, D') ∧
    ((∃ y, Periodic ((Examples.hInt.abs (IET.fresh [0, 1, 2] [2, 1, 0]) ⟨[], [5, 2, 7]⟩).map (Int.castRingHom ℚ)).Maps y) ↔
      ∃ x ∈ D'.comps, x.cylinder = some true) := by
  obtain ⟨D, h1, -⟩ := Decomp.make_spec Examples.hInt (ι := AddMonoidHom.id ℤ) (fun _ _ h => h) Examples.intThree_ok
  obtain ⟨F, D', h2, -⟩ := C107_decompose Examples.hInt (fun x hx => by simpa [intCoef] using congrFun hx 0) PPL.ideal_lawful Examples.intThree_ok
    (by decide) (fun D steps h x hx _ => Examples.intThree_rounds D steps h x hx) (.init h1)
  exact ⟨D, D', F, h1, h2 F le_rfl, (C111_decompose Examples.hInt (fun x hx => by simpa [intCoef] using congrFun hx 0) PPL.ideal_lawful Examples.intThree_ok
    (by decide) (.init h1) (h2 F le_rfl) (ι := Int.castRingHom ℚ) (fun _ _ h => by simpa using h)).2.1⟩

open Examples in
/-- The same IET with two calls that have different limits. -/
example {D D₁ D' D₁' : Decomp (SLengths Cubic) Cubic} {steps steps' : List DStep} {limit limit' : ℤ} {fuel fuel' : ℕ}
    (h : DReach PPL.ideal (SLengths.ops cubicArith) (IET.fresh [0, 1, 2] [2, 1, 0]) Examples.cubicThree D steps)
    (h' : DReach PPL.ideal (SLengths.ops cubicArith) (IET.fresh [0, 1, 2] [2, 1, 0]) Examples.cubicThree D' steps')
    (hr : D.decompose PPL.ideal (SLengths.ops cubicArith) Decomp.defaultTarget limit fuel = .ok (true, D₁))
    (hr' : D'.decompose PPL.ideal (SLengths.ops cubicArith) Decomp.defaultTarget limit' fuel' = .ok (true, D₁')) :
    (∃ x ∈ D₁.comps, x.cylinder = some true) ↔ ∃ x ∈ D₁'.comps, x.cylinder = some true :=
  (C111_agree Examples.hCubic Examples.hCubic cubicCoef_injective cubicCoef_injective PPL.ideal_lawful PPL.ideal_lawful Examples.cubicThree_ok
    Examples.cubicThree_ok (by decide) (by decide) h h' hr hr' Cubic.toReal_strictMono Cubic.toReal_strictMono rfl rfl).1

end Verif
