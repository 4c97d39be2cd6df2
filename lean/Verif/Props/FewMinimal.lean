import Verif.Props.FewIntervals
import Verif.Props.Decomposition
import Verif.Props.ThreeIntervals
import Verif.Props.Unique

/-!
# C108: IETs with at most three intervals and without periodic points are recognised at once
-/

namespace Verif

set_option linter.unusedSectionVars false

variable {σ T ε : Type} [CommRing T] [LinearOrder T] [IsStrictOrderedRing T] {O : LengthsOps σ T} {d : ℕ} {c : T →+ (Fin d → ℚ)}

/-- An IET with at most three intervals that can be reduced has a periodic point. -/
theorem few_irreducible {A : AIET T} (hA : A.Valid) (h3 : A.top.length ≤ 3) (hp : ¬ ∃ x, Periodic A.Maps x) : A.Irreducible := by
  intro k
  induction k using Nat.strong_induction_on with
  | _ k ih =>
    intro h0 h1 hperm
    have hcut : IsCut A ⟨A.top.take k, A.bottom.take k, A.len⟩ ⟨A.top.drop k, A.bottom.drop k, A.len⟩ k :=
      ⟨h0, h1, rfl, rfl, hperm.symm, fun j j0 j1 => ih j j1 j0 (by omega)⟩
    apply hp
    rw [hcut.periodic_iff hA]
    by_cases hk : k = 1
    · exact .inl (single_periodic (hcut.valid_left hA) (by simp; omega))
    · exact .inr (single_periodic (hcut.valid_right hA) (by simp; omega))

/-- **C108** When an IET with at most three intervals has no periodic point then, from every state of its decomposition and with any limit on the rounds of induction,
`decompose()` returns true and there is a single component then, which has at least two intervals and is known to be without periodic trajectories. -/
theorem C108_decompose (H : LawfulLengths O c ε) (hc : ∀ x, c x = 0 → x = 0) {L : PPL} (hL : L.Lawful) {E : IET T} {s : σ}
    (hE : H.Ok E s) (h3 : E.top.length ≤ 3) (hp : ¬ ∃ x, Periodic (H.abs E s).Maps x) {D : Decomp σ T} {steps : List DStep}
    (h : DReach L O E s D steps) {limit : ℤ} (hlimit : -1 ≤ limit) :
    ∃ fuel D' x, (∀ n, fuel ≤ n → D.decompose L O Decomp.defaultTarget limit n = .ok (true, D')) ∧ D'.comps = [x] ∧
      x.cylinder = some false ∧ x.withoutPeriodicTrajectory = some true ∧ 1 < x.iet.top.length := by
  have hcomp : ∀ {D : Decomp σ T} {steps : List DStep}, DReach L O E s D steps → ∀ x ∈ D.comps, (H.abs x.iet D.lengths.inner).Valid ∧
      x.iet.top.length ≤ 3 ∧ ¬ ∃ y, Periodic (H.abs x.iet D.lengths.inner).Maps y := by
    intro D steps h x hx
    have hinv := h.inv hL H (ι := AddMonoidHom.id T) (fun _ _ h => h) hE
    refine ⟨(hinv.good x hx).ok.valid, h.few H hL hE h3 hx, fun hy => hp ?_⟩
    exact (C36_periodic H hL hE h (ι := AddMonoidHom.id T) (fun _ _ h => h)).mpr ⟨x, hx, hy⟩
  have hsettle : ∀ {A : AIET T}, A.Valid → A.top.length ≤ 3 → (¬ ∃ y, Periodic A.Maps y) → Settles c A 0 := by
    intro A hA h3 hp n _ B hB hirr hrel
    have hs := rounds_steps hA hB
    obtain ⟨δ, hf⟩ := hs.fwd hA
    exact hp (hf.periodic_iff.mpr (few_periodic hc (rounds_valid hA hB) (by rw [hs.top_perm.length_eq]; exact h3) hirr hrel))
  obtain ⟨F, D', h1⟩ := decomposeAll_settles H hL hE (limit := limit) (by
    intro D steps i x h hi
    have hinv := h.inv hL H (ι := AddMonoidHom.id T) (fun _ _ h => h) hE
    have hx := List.mem_of_getElem? hi
    obtain ⟨c1, c2, c3⟩ := hcomp h x hx
    have hN := hsettle c1 c2 c3
    by_cases hl : limit = -1
    · subst hl
      obtain ⟨r, h1, ⟨step, D', rfl⟩ | ⟨-, h2, h3⟩⟩ := step_settles hL hc hinv hi hN
      · refine ⟨2, step, D', ?_, h1⟩
        obtain ⟨_, -, -, hl, -⟩ := h.effect hL H hE (h1 2 (le_refl _))
        exact hl rfl
      · exact absurd (few_periodic hc c1 c2 (few_irreducible c1 c2 c3) (posRelation_of_saf hc c1 h2)) c3
    · obtain ⟨m, rfl⟩ : ∃ m : ℕ, limit = m := ⟨limit.toNat, by omega⟩
      obtain ⟨step, D', h1, -⟩ := decompositionStepBounded_spec (fun _ _ h => h) hL hinv hi (limit := (m : ℤ)) (by omega)
      refine ⟨0, step, D', fun hr => ?_, fun n _ => ?_⟩
      · obtain ⟨x', -, -, h2, h3, h4, -⟩ := bounded_rounds hL hc hinv hi h1 hr
        exact hN m (Nat.zero_le _) _ h2 h3 h4
      · unfold Decomp.decompositionStep
        rw [if_neg (by omega), h1]) (target := Decomp.defaultTarget) (by
    rintro x (hx | hx) <;> simp [Decomp.defaultTarget, hx]) (List.range D.comps.length) h (fun i hi => List.mem_range.mp hi)
  obtain ⟨steps', h2, -, -⟩ := C38_target H hL hE h (h1 F le_rfl)
  have hall : ∀ x ∈ D'.comps, x.cylinder = some false ∧ x.withoutPeriodicTrajectory = some true ∧ 1 < x.iet.top.length := ?_
  · have hcount := (h2.counts H hL hE).1
    have hsum := h2.sum_length H hL hE
    match hD : D'.comps with
    | [] => rw [hD] at hcount; simp at hcount
    | [x] => exact ⟨F, D', x, h1, hD, hall x (by simp [hD])⟩
    | x :: y :: rest =>
      have := (hall x (by simp [hD])).2.2
      have := (hall y (by simp [hD])).2.2
      rw [hD] at hsum
      simp only [List.map_cons, List.sum_cons] at hsum
      omega
  intro x hx
  obtain ⟨c1, c2, c3⟩ := hcomp h2 x hx
  have hone : x.iet.top.length ≠ 1 := fun e => c3 (single_periodic c1 e)
  have hne : 0 < x.iet.top.length := by
    have := (h2.labels H hL hE hx).2.1
    exact List.length_pos_of_ne_nil this
  rcases C38_default H hL hE h (h1 F le_rfl) x hx with ⟨q1, q2⟩ | ⟨q1, q2⟩
  · have hinv := h2.inv hL H (ι := AddMonoidHom.id T) (fun _ _ h => h) hE
    exact absurd ((hinv.flags x hx).cylinder q1) hone
  · exact ⟨q1, q2, by omega⟩

/-- Lengths `1`, `√2`, `2` in reversed order: a limit of zero rounds is enough. -/
example : ∃ D D' x fuel, Decomp.make (SLengths.ops Examples.q2Arith) (IET.fresh [0, 1, 2] [2, 1, 0]) ⟨[], [⟨1, 0⟩, ⟨0, 1⟩, ⟨2, 0⟩]⟩ = .ok D ∧
    D.decompose PPL.ideal (SLengths.ops Examples.q2Arith) Decomp.defaultTarget 0 fuel = .ok (true, D') ∧
    D'.comps = [x] ∧ x.withoutPeriodicTrajectory = some true := by
  have hp : ¬ ∃ x, Periodic (Examples.hQ2.abs (IET.fresh [0, 1, 2] [2, 1, 0]) ⟨[], [⟨1, 0⟩, ⟨0, 1⟩, ⟨2, 0⟩]⟩).Maps x := by
    obtain ⟨r, E', v, F, -, g2, g3, -, g5⟩ := C106_three Examples.hQ2 Examples.q2Coef_faithful PPL.ideal_lawful
      (Examples.sample_reachable Examples.hQ2 PPL.ideal Examples.q2Three_ok) (E := IET.fresh [0, 1, 2] [2, 1, 0]) (by simp) rfl
      (fun k k0 k1 => by interval_cases k <;> simp [IET.fresh] <;> decide) (ι := AddMonoidHom.id _) (fun _ _ h => h)
    have e : ((IET.fresh [0, 1, 2] [2, 1, 0] : IET Examples.Q2).safInvariant (SLengths.ops Examples.q2Arith)
      ⟨[], [⟨1, 0⟩, ⟨0, 1⟩, ⟨2, 0⟩]⟩).map Prod.fst = .ok [-2] := by decide +kernel
    have g2' : (IET.fresh [0, 1, 2] [2, 1, 0] : IET Examples.Q2).safInvariant (SLengths.ops Examples.q2Arith)
      ⟨[], [⟨1, 0⟩, ⟨0, 1⟩, ⟨2, 0⟩]⟩ = .ok (v, F) := g2
    rw [g2'] at e
    have hv : v = [-2] := Except.ok.inj e
    apply g3.mp
    cases r
    · have := g5.mp rfl (-2) (by simp [hv])
      norm_num at this
    · rfl
  obtain ⟨D, h1, -⟩ := Decomp.make_spec Examples.hQ2 (ι := AddMonoidHom.id Examples.Q2) (fun _ _ h => h) Examples.q2Three_ok
  obtain ⟨F, D', x, h2, h3, -, h4, -⟩ := C108_decompose Examples.hQ2 Examples.q2_faithful PPL.ideal_lawful Examples.q2Three_ok (by decide) hp (.init h1)
    (limit := 0) (by omega)
  exact ⟨D, D', x, F, h1, h2 F le_rfl, h3, h4⟩

end Verif
