import Verif.Proofs.ThreeIntervals
import Verif.Props.Rotation

/-!
# C106: Boshernitzan's criterion and the SAF invariant decide whether an irreducible exchange of three intervals is periodic
-/

namespace Verif

set_option linter.unusedSectionVars false

variable {σ T ε P : Type} [CommRing T] [LinearOrder T] [IsStrictOrderedRing T] [CommRing P] [LinearOrder P]
  [IsStrictOrderedRing P] {O : LengthsOps σ T} {d : ℕ} {c : T →+ (Fin d → ℚ)}

/-- **C106** For an IET that exchanges three intervals and that cannot be reduced, `boshernitzanNoPeriodicTrajectory()` returns true exactly
if there is no periodic point and false exactly if all points are periodic; the latter is the case exactly if the SAF invariant is zero. -/
theorem C106_three (H : LawfulLengths O c ε) (hc : ∀ x, c x = 0 → x = 0) {L : PPL} (hL : L.Lawful) {w : World σ T}
    (h : Reachable H L w) {E : IET T} (hE : E ∈ w.pieces) (h3 : E.top.length = 3)
    (hirr : ∀ k, 0 < k → k < 3 → ¬ (E.top.take k).Perm (E.bottom.take k)) {ι : T →+ P} (hι : StrictMono ι) :
    ∃ (r : Bool) (E' : IET T) (v : List ℚ) (F : IET T), E.boshernitzanNoPeriodicTrajectory L O w.lengths = .ok (r, E') ∧
      E.safInvariant O w.lengths = .ok (v, F) ∧
      (r = true ↔ ¬ ∃ x, Periodic ((H.abs E w.lengths).map ι).Maps x) ∧
      (r = false ↔ ∀ x, 0 ≤ x → x < ((H.abs E w.lengths).map ι).total → Periodic ((H.abs E w.lengths).map ι).Maps x) ∧
      (r = false ↔ ∀ u ∈ v, u = 0) := by
  have hg := h.good hL hE
  have hval := hg.ok.valid
  have hsaf := safInvariant_spec H hg.ok hg.cache
  obtain ⟨α, β, i, j, hcomb⟩ := combines_three hval (show (H.abs E w.lengths).top.length = 3 from h3) (fun k k0 k1 => hirr k k0 (by
    have : k < E.top.length := k1
    omega))
  obtain ⟨r, h1, h2⟩ := boshernitzanNoPeriodicTrajectory_spec H hL hg.ok hg.cache
  obtain ⟨r', E', q1, q2⟩ := C22_exact H hc hL h hE
  rw [h1] at q1
  cases q1
  -- a relation between the translations makes everything periodic
  have key : r = false → (∀ x, 0 ≤ x → x < ((H.abs E w.lengths).map ι).total → Periodic ((H.abs E w.lengths).map ι).Maps x) ∧
      ∀ u ∈ safList c (H.abs E w.lengths), u = 0 := by
    intro hr
    have hrel : ∃ n : Label → ℕ, (∃ a ∈ E.top, n a ≠ 0) ∧ (E.top.map (fun a => (n a : T) * (H.abs E w.lengths).transl a)).sum = 0 := by
      by_contra hno
      have := q2.mpr ⟨by omega, hno⟩
      rw [hr] at this
      cases this
    obtain ⟨n, hn, hs⟩ := hrel
    obtain ⟨N, M, hN, e⟩ := hcomb.relation hn hs
    exact ⟨fun x x0 x1 => hcomb.periodic hval hι hN e x0 x1, hcomb.saf_zero hN e⟩
  have htot : 0 < ((H.abs E w.lengths).map ι).total := by
    have hv := hval.map hι
    obtain ⟨a, ha⟩ : ∃ a, a ∈ E.top := List.exists_mem_of_length_pos (by omega)
    obtain ⟨x0, x1⟩ := hv.maps_dom (⟨a, ha, le_rfl, by have := hv.pos a ha; linarith, rfl⟩ :
      ((H.abs E w.lengths).map ι).Maps (off ((H.abs E w.lengths).map ι).len ((H.abs E w.lengths).map ι).top a) _)
    exact x0.trans_lt x1
  have hnp : r = true → ¬ ∃ x, Periodic ((H.abs E w.lengths).map ι).Maps x := by
    rintro rfl
    exact C20_no_periodic H hL h hE h1 hι
  refine ⟨r, _, _, _, h1, hsaf, ⟨hnp, fun q => ?_⟩, ⟨fun q => (key q).1, fun q => ?_⟩, fun q => (key q).2, fun q => ?_⟩
  · cases r
    · exact absurd ⟨0, (key rfl).1 0 le_rfl htot⟩ q
    · rfl
  · cases r
    · rfl
    · exact absurd ⟨0, q 0 le_rfl htot⟩ (hnp rfl)
  · cases r
    · rfl
    · exact absurd q (h2.mp rfl).1

/-- Lengths `1`, `√2`, `1` in reversed order: the lengths are not commensurable but all points are periodic. -/
example (x : Examples.Q2) (h0 : 0 ≤ x) (h1 : x < ⟨2, 1⟩) :
    Periodic ((Examples.hQ2.abs (IET.fresh [0, 1, 2] [2, 1, 0]) ⟨[], [⟨1, 0⟩, ⟨0, 1⟩, ⟨1, 0⟩]⟩).map (AddMonoidHom.id Examples.Q2)).Maps x := by
  obtain ⟨r, E', v, F, -, g2, -, g4, g5⟩ := C106_three Examples.hQ2 Examples.q2Coef_faithful PPL.ideal_lawful
    (Examples.sample_reachable Examples.hQ2 PPL.ideal (top := [0, 1, 2]) (bottom := [2, 1, 0]) (s := ⟨[], [⟨1, 0⟩, ⟨0, 1⟩, ⟨1, 0⟩]⟩)
      (Examples.sample_ok _ _ _ _ (by decide))) (E := IET.fresh [0, 1, 2] [2, 1, 0]) (by simp) rfl
    (fun k k0 k1 => by interval_cases k <;> simp [IET.fresh] <;> decide)
    (ι := AddMonoidHom.id _) (fun _ _ h => h)
  have hv : v = [0] := by
    have e : ((IET.fresh [0, 1, 2] [2, 1, 0] : IET Examples.Q2).safInvariant (SLengths.ops Examples.q2Arith)
      ⟨[], [⟨1, 0⟩, ⟨0, 1⟩, ⟨1, 0⟩]⟩).map Prod.fst = .ok [0] := by decide +kernel
    have g2' : (IET.fresh [0, 1, 2] [2, 1, 0] : IET Examples.Q2).safInvariant (SLengths.ops Examples.q2Arith)
      ⟨[], [⟨1, 0⟩, ⟨0, 1⟩, ⟨1, 0⟩]⟩ = .ok (v, F) := g2
    rw [g2'] at e
    exact Except.ok.inj e
  refine g4.mp (g5.mpr (by simp [hv])) x h0 ?_
  have : ((Examples.hQ2.abs (IET.fresh [0, 1, 2] [2, 1, 0]) ⟨[], [⟨1, 0⟩, ⟨0, 1⟩, ⟨1, 0⟩]⟩).map (AddMonoidHom.id Examples.Q2)).total = ⟨2, 1⟩ := by
    decide +kernel
  rw [this]
  exact h1

/-- Lengths `1`, `√2`, `2` in reversed order: there is no periodic point. -/
example : ¬ ∃ x, Periodic ((Examples.hQ2.abs (IET.fresh [0, 1, 2] [2, 1, 0])
    ⟨[], [⟨1, 0⟩, ⟨0, 1⟩, ⟨2, 0⟩]⟩).map (AddMonoidHom.id Examples.Q2)).Maps x := by
  obtain ⟨r, E', v, F, -, g2, g3, -, g5⟩ := C106_three Examples.hQ2 Examples.q2Coef_faithful PPL.ideal_lawful
    (Examples.sample_reachable Examples.hQ2 PPL.ideal (top := [0, 1, 2]) (bottom := [2, 1, 0]) (s := ⟨[], [⟨1, 0⟩, ⟨0, 1⟩, ⟨2, 0⟩]⟩)
      (Examples.sample_ok _ _ _ _ (by decide))) (E := IET.fresh [0, 1, 2] [2, 1, 0]) (by simp) rfl
    (fun k k0 k1 => by interval_cases k <;> simp [IET.fresh] <;> decide)
    (ι := AddMonoidHom.id _) (fun _ _ h => h)
  have e : ((IET.fresh [0, 1, 2] [2, 1, 0] : IET Examples.Q2).safInvariant (SLengths.ops Examples.q2Arith)
    ⟨[], [⟨1, 0⟩, ⟨0, 1⟩, ⟨2, 0⟩]⟩).map Prod.fst = .ok [-2] := by decide +kernel
  have g2' : (IET.fresh [0, 1, 2] [2, 1, 0] : IET Examples.Q2).safInvariant (SLengths.ops Examples.q2Arith)
    ⟨[], [⟨1, 0⟩, ⟨0, 1⟩, ⟨2, 0⟩]⟩ = .ok (v, F) := g2
  rw [g2'] at e
  have hv : v = [-2] := Except.ok.inj e
  apply g3.mp
  cases r
  · have := g5.mp rfl (-2) (by simp [hv])
    norm_num at this
  · rfl

end Verif
