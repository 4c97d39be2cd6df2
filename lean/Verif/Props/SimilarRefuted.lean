import Verif.ExamplesTotallyReal
import Verif.Props.Renormalize
import Verif.Props.Target

/-!
# C23 and C37 are false if labels have been exchanged

The full claim C23 is: if `induce` reports WITHOUT_PERIODIC_TRAJECTORY_AUTO_SIMILAR then there is no periodic point.  The full claim C37
is that there are no periodic points in a component for which `withoutPeriodicTrajectory()` is true.

Both claims are true if the labels have the same order as in the state that the tracker remembers, up to the exchange of labels of the same
length (`IET.Aligned`, Props/Similar.lean and Props/SelfSimilar.lean).  Otherwise they can fail.  The code takes the labels `othera` and `otherb` of the *current* state from the top
of the remembered state (similarity_tracker.cc:45-46), so lengths are compared label by label whereas the permutations are compared
position by position (similarity_tracker.cc:37-39).  Here is an exchange of eight intervals, with lengths in a totally real cubic number
field, for which `induce` and `decompose` claim that there are no periodic points although there are some.
-/

namespace Verif

set_option linter.unusedSectionVars false

variable {σ T ε : Type} [CommRing T] [LinearOrder T] [IsStrictOrderedRing T] {O : LengthsOps σ T} {d : ℕ} {c : T →+ (Fin d → ℚ)}

/-- An interval which is not moved consists of periodic points. -/
theorem AIET.Valid.periodic_of_fixed {A : AIET T} (hA : A.Valid) {a : Label} (ha : a ∈ A.top) (h : off A.len A.top a = off A.len A.bottom a) :
    Periodic A.Maps (off A.len A.top a) :=
  .single ⟨a, ha, le_refl _, by have := hA.pos a ha; linarith, by rw [h]; ring⟩

/-- There are periodic points if calls to `zorichInduction` lead to a state in which some interval is not moved. -/
theorem ZorichCalls.periodic {H : LawfulLengths O c ε} {E E' : IET T} {s s' : σ} {rs : List Bool} (h : ZorichCalls O E s rs E' s')
    (hE : H.Ok E s) {a : Label} (ha : a ∈ E'.top) (hoff : off (H.len s') E'.top a = off (H.len s') E'.bottom a) :
    ∃ x, Periodic (H.abs E s).Maps x := by
  obtain ⟨h1, h2, _⟩ := h.steps hE
  have hp : ∃ x, Periodic (H.abs E' s').Maps x := ⟨_, h1.valid.periodic_of_fixed ha hoff⟩
  rcases h2 with h2 | h2
  · obtain ⟨δ, hf⟩ := Steps.fwd hE.valid h2
    exact hf.periodic_iff.mpr hp
  · obtain ⟨δ, hf⟩ := Steps.fwd hE.valid.inv h2
    obtain ⟨x, hx⟩ := hf.periodic_iff.mpr hp
    refine ⟨x, ?_⟩
    have hsw : (H.abs E s).inv.Maps = Function.swap (H.abs E s).Maps := by
      funext u v
      exact propext hE.valid.maps_inv
    unfold Periodic at hx ⊢
    rwa [hsw, Relation.transGen_swap] at hx

namespace Examples

/-- The state after calling `zorichInduction` and `swap` the given number of times. -/
def zorichState (O : LengthsOps σ T) : ℕ → IET T → σ → Option (IET T × σ)
  | 0, E, s => some (E, s)
  | n + 1, E, s => match E.zorichInduction O s with
    | .ok (_, E', s') => zorichState O n E'.swap s'
    | .error _ => none

theorem zorichState_calls {O : LengthsOps σ T} {E₀ : IET T} {s₀ : σ} : ∀ (n : ℕ) (E : IET T) (s : σ) (rs : List Bool) (E' : IET T) (s' : σ),
    ZorichCalls O E₀ s₀ rs E s → zorichState O n E s = some (E', s') → ∃ rs, ZorichCalls O E₀ s₀ rs E' s'
  | 0, _, _, _, _, _, hc, h => by cases h; exact ⟨_, hc⟩
  | n + 1, E, s, rs, _, _, hc, h => by
    unfold zorichState at h
    split at h
    · rename_i r E₁ s₁ hz
      exact zorichState_calls n _ _ _ _ _ (.swap (.zorich hc hz)) h
    · cases h

/-- Whether the interval 2 is not moved. -/
def fixedTwo (r : Option (IET Tri × SLengths Tri)) : Bool := match r with
  | some (E, s) => decide (2 ∈ E.top ∧ off s.len E.top 2 = off s.len E.bottom 2)
  | none => false

/-- The loop has found a similar state, but 36 more calls to `zorichInduction` lead to a state in which an interval is not moved. -/
def claimedWrongly (r : M (IET.LoopEnd × IET Tri × SLengths Tri)) : Bool := match r with
  | .ok (e, E', s') => decide (e = .autoSimilar) && fixedTwo (zorichState (SLengths.ops triArith) 36 E' s')
  | .error _ => false

theorem tri_run : claimedWrongly (triIET.inducePhase (SLengths.ops triArith) 0 17 triState) = true := by decide +kernel

/-- The decomposition of this transformation before any steps have been performed. -/
def triDecomp : Decomp (SLengths Tri) Tri := ⟨[{ iet := triIET }], ⟨triState, [], ⟨triIET.top, fun _ => {}⟩, []⟩⟩

/-- `decompose()` was successful; there is a single component for which `withoutPeriodicTrajectory()` is true, but 36 calls to
`zorichInduction` lead to a state in which an interval is not moved. -/
def decomposedPeriodic (r : M (Bool × Decomp (SLengths Tri) Tri)) : Bool := match r with
  | .ok (b, D) => b && match D.comps with
    | [x] => decide (x.withoutPeriodicTrajectory = some true) &&
      fixedTwo ((zorichState (LWC.ops (SLengths.ops triArith)) 36 x.iet D.lengths).map (fun p => (p.1, p.2.inner)))
    | _ => false
  | .error _ => false

theorem triDecomp_run : decomposedPeriodic (triDecomp.decompose PPL.ideal (SLengths.ops triArith) Decomp.defaultTarget (-1) 20) = true := by
  decide +kernel

theorem triDecomp_make : Decomp.make (SLengths.ops triArith) triIET triState = .ok triDecomp := by
  obtain ⟨D₀, g1, g2, _⟩ := Decomp.make_spec hTri (ι := AddMonoidHom.id Tri) (fun _ _ h => h) tri_ok
  rw [g1]
  simp only [Decomp.make, bind, Except.bind, pure, Except.pure] at g1
  split at g1 <;> cases g1
  cases g2
  rfl

end Examples

open Examples in
/-- **C23** is false in general: there is an IET that a caller can construct for which `induce` reports
WITHOUT_PERIODIC_TRAJECTORY_AUTO_SIMILAR although it has periodic points, and so has the IET that results. -/
theorem C23_refuted (L : PPL) : ∃ E' s',
    Reachable hTri PPL.ideal ⟨[triIET], triState⟩ ∧
    triIET.induce L (SLengths.ops triArith) 0 17 triState = .ok (⟨.withoutPeriodicTrajectoryAutoSimilar, none, none⟩, E', s') ∧
    (∃ x, Periodic (hTri.abs triIET triState).Maps x) ∧ ∃ x, Periodic (hTri.abs E' s').Maps x := by
  have h := tri_run
  unfold claimedWrongly at h
  split at h
  · rename_i e E' s' hr
    rw [Bool.and_eq_true, decide_eq_true_eq] at h
    obtain ⟨rfl, h2⟩ := h
    have hreach : Reachable hTri PPL.ideal ⟨[triIET], triState⟩ := sample_reachable _ _ tri_ok
    have hg : hTri.Good triIET triState := hreach.good PPL.ideal_lawful (by simp)
    rcases inducePhase_spec hTri 0 17 triIET triState hg with ⟨_, h1⟩ | ⟨e, E₁, s₁, h1, hm, _⟩
    · exact absurd h1 (by decide)
    rw [hr] at h1
    cases h1
    unfold fixedTwo at h2
    split at h2
    · rename_i E₂ s₂ hz
      have h2 := of_decide_eq_true h2
      obtain ⟨rs, hc⟩ := zorichState_calls 36 E' s' [] E₂ s₂ .nil hz
      have hp : ∃ x, Periodic (hTri.abs E' s').Maps x := hc.periodic (H := hTri) (hm.ok tri_ok) h2.1 h2.2
      obtain ⟨δ, hf⟩ := Steps.fwd tri_ok.valid hm.steps
      refine ⟨E', s', hreach, ?_, hf.periodic_iff.mpr hp, hp⟩
      rw [IET.induce, if_neg (by decide), hr]
      simp only [bind, Except.bind, if_true, pure, Except.pure]
    · cases h2
  · cases h

open Examples in
/-- **C37** is false in general: there is an IET for which `decompose()` (unlimited, with the default target) returns true and leaves a
single component for which `withoutPeriodicTrajectory()` is true, but that component has periodic points, and so has the original IET. -/
theorem C37_refuted : ∃ D D' x, Decomp.make (SLengths.ops triArith) triIET triState = .ok D ∧
    D.decompose PPL.ideal (SLengths.ops triArith) Decomp.defaultTarget (-1) 20 = .ok (true, D') ∧ D'.comps = [x] ∧
    x.withoutPeriodicTrajectory = some true ∧ (∃ y, Periodic (hTri.abs x.iet D'.lengths.inner).Maps y) ∧
    ∃ y, Periodic (hTri.abs triIET triState).Maps y := by
  obtain ⟨_, _, _, _, hp, _⟩ := C23_refuted PPL.ideal
  have h := triDecomp_run
  unfold decomposedPeriodic at h
  split at h
  · rename_i b D' hr
    rw [Bool.and_eq_true] at h
    obtain ⟨rfl, h2⟩ := h
    split at h2
    · rename_i x hx
      rw [Bool.and_eq_true, decide_eq_true_eq] at h2
      obtain ⟨h2, h3⟩ := h2
      refine ⟨triDecomp, D', x, triDecomp_make, hr, hx, h2, ?_, hp⟩
      obtain ⟨steps, g1, _⟩ := C38_target hTri PPL.ideal_lawful tri_ok (.init triDecomp_make) hr
      have hok := ((g1.inv PPL.ideal_lawful hTri (ι := AddMonoidHom.id Tri) (fun _ _ h => h) tri_ok).good x (by rw [hx]; simp)).ok
      unfold fixedTwo at h3
      split at h3
      · rename_i E₂ s₂ hz
        have h3 := of_decide_eq_true h3
        rw [Option.map_eq_some_iff] at hz
        obtain ⟨⟨E₃, s₃⟩, hz, e⟩ := hz
        cases e
        obtain ⟨rs, hc⟩ := zorichState_calls 36 x.iet D'.lengths [] E₃ s₃ .nil hz
        exact hc.periodic (H := LWC.lawful hTri) hok h3.1 h3.2
      · cases h3
    · cases h2
  · cases h

end Verif
