import Verif.ExamplesQuadratic
import Verif.Proofs.Renormalize
import Verif.Props.SelfSimilar

/-!
# C71: Induction after AUTO_SIMILAR

The full claim C71 is: once `induce` has reported WITHOUT_PERIODIC_TRAJECTORY_AUTO_SIMILAR, the induction is going to repeat itself
for ever, so `zorichInduction` never reports a saddle connection any more, no matter how often it is called, on the IET or on the IET
with top and bottom swapped.

This is true if the labels have the same order as in the state that the tracker remembers, up to the exchange of labels of the same length,
`C71_no_connection_partial`.  It is false
in general, `C71_refuted`: the code compares permutations position by position but lengths label by label (similarity_tracker.cc:37-50).
For an exchange of seven intervals with lengths in `ℤ[√13]`, `induce` reports AUTO_SIMILAR but a few calls to `zorichInduction` later a
saddle connection is found.
-/

namespace Verif

set_option linter.unusedSectionVars false

variable {σ T ε : Type} [CommRing T] [LinearOrder T] [IsStrictOrderedRing T] {O : LengthsOps σ T} {d : ℕ} {c : T →+ (Fin d → ℚ)}

/-- Calls to `zorichInduction` and `swap` that a caller makes on an IET, with the values returned by `zorichInduction` (the last one
first). -/
inductive ZorichCalls (O : LengthsOps σ T) (E : IET T) (s : σ) : List Bool → IET T → σ → Prop
  | nil : ZorichCalls O E s [] E s
  | swap {rs : List Bool} {E₁ : IET T} {s₁ : σ} : ZorichCalls O E s rs E₁ s₁ → ZorichCalls O E s rs E₁.swap s₁
  | zorich {rs : List Bool} {E₁ E₂ : IET T} {s₁ s₂ : σ} {r : Bool} : ZorichCalls O E s rs E₁ s₁ →
      E₁.zorichInduction O s₁ = .ok (r, E₂, s₂) → ZorichCalls O E s (r :: rs) E₂ s₂

theorem ZorichCalls.steps {H : LawfulLengths O c ε} {E E' : IET T} {s s' : σ} {rs : List Bool} (h : ZorichCalls O E s rs E' s')
    (hE : H.Ok E s) : H.Ok E' s' ∧ (Steps (H.abs E s) (H.abs E' s') ∨ Steps (H.abs E s).inv (H.abs E' s')) ∧
      (true ∈ rs → (H.abs E' s').Stuck) := by
  induction h with
  | nil => exact ⟨hE, .inl .refl, by simp⟩
  | swap _ ih =>
    obtain ⟨h1, h2, h3⟩ := ih
    refine ⟨h1.swap, ?_, fun h => (h3 h).inv⟩
    rcases h2 with h2 | h2
    · exact .inr h2.inv
    · exact .inl h2.inv
  | @zorich rs E₁ E₂ s₁ s₂ r _ hz ih =>
    obtain ⟨h1, h2, h3⟩ := ih
    obtain ⟨r', E', s', e, hs⟩ := zorichInduction_spec H E₁ s₁ h1
    rw [e] at hz
    cases hz
    refine ⟨hs.ok, ?_, ?_⟩
    · rcases h2 with h2 | h2
      · exact .inl (h2.trans hs.run.steps)
      · exact .inr (h2.trans hs.run.steps)
    · intro h
      rcases List.mem_cons.mp h with h | h
      · have hv := hs.ok.valid
        obtain ⟨a, ha⟩ : ∃ a, E₂.top.head? = some a := by
          cases ht : E₂.top with
          | nil => exact absurd ht hv.ne_nil
          | cons a t => exact ⟨a, rfl⟩
        obtain ⟨b, hb⟩ : ∃ b, E₂.bottom.head? = some b := by
          cases ht : E₂.bottom with
          | nil => exact absurd ht hv.inv.ne_nil
          | cons a t => exact ⟨a, rfl⟩
        exact ⟨a, b, ha, hb, (hs.ret a b ha hb).mp h.symm⟩
      · rcases Relation.ReflTransGen.cases_head hs.run.steps with e | ⟨D, e, _⟩
        · rw [← e]; exact h3 h
        · exact absurd e (h3 h).not_step

/-- **C71** (partial) If `induce` reports WITHOUT_PERIODIC_TRAJECTORY_AUTO_SIMILAR, and each label on the top has the same length
as the label that had been at its place in the state which the tracker remembers, then no call to `zorichInduction`, before or after any number of swaps and other calls, finds
a saddle connection (missing: reports for an IET that is not aligned with the remembered state, for which the claim is false, `C71_refuted`). -/
theorem C71_no_connection_partial (H : LawfulLengths O c ε) {L : PPL} (hL : L.Lawful) {w : World σ T} (h : Reachable H L w)
    {E E' : IET T} {s' : σ} {step : InductionStep T} {fuel : ℕ} {limit : ℤ} (hE : E ∈ w.pieces)
    (hr : E.induce L O fuel limit w.lengths = .ok (step, E', s'))
    (hres : step.result = .withoutPeriodicTrajectoryAutoSimilar) (halign : E'.Aligned O s')
    {rs : List Bool} {E'' : IET T} {s'' : σ} (hc : ZorichCalls O E' s' rs E'' s'') : true ∉ rs := by
  have hg := h.good hL hE
  rcases induce_spec H hL fuel limit E w.lengths hg with ⟨h1, _⟩ | ⟨st, E₁, s₁, h1, hs, hg', _⟩
  · rw [h1] at hr; cases hr
  rw [h1] at hr
  cases hr
  cases hs with
  | cylinder => cases hres
  | @auto E' s' _ _ hm hl _ =>
    have hok := hm.ok hg.ok
    obtain ⟨_, c2, c3⟩ := hc.steps (H := H) hok
    intro hmem
    have hst := c3 hmem
    obtain ⟨E₀, E₁, g1, g2, g3, g4, g5⟩ := hl.aligned hok.inv hok.dom hok.valid halign
    have hv₁ := Steps.valid g1 g2.to_reflTransGen
    -- what is reached from the current state is also reached from `E₁`
    have key : ∃ C, Steps E₁ C ∧ C.Stuck := by
      have agree_stuck : ∀ {A B : AIET T}, A.Valid → A.Agree B → A.Stuck → B.Stuck := by
        rintro A B hA ⟨e1, e2, e3⟩ ⟨a, b, k1, k2, k3⟩
        exact ⟨a, b, e1 ▸ k1, e2 ▸ k2, by rw [← e3 a (List.mem_of_mem_head? k1), ← e3 b (hA.perm.mem_iff.mp (List.mem_of_mem_head? k2)), k3]⟩
      have go : ∀ {A B C : AIET T}, A.Valid → A.Agree B → Steps A C → C.Stuck → ∃ C', Steps B C' ∧ C'.Stuck := by
        intro A B C hA hab hAC hC
        obtain ⟨C', k1, k2⟩ := hAC.agree hA hab
        exact ⟨C', k1, agree_stuck (Steps.valid hA hAC) k2 hC⟩
      have hv : (H.abs E' s').Valid := hok.valid
      rcases g3 with g3 | g3 <;> rcases c2 with c2 | c2
      · exact go hv g3.symm c2 hst
      · exact go hv g3.symm (by simpa using c2.inv) hst.inv
      · exact go hv.inv g3.symm c2.inv hst.inv
      · exact go hv.inv g3.symm c2 hst
    obtain ⟨C, k1, k2⟩ := key
    obtain ⟨ρ, hρ⟩ := g4.renames g1 hok.valid g5
    have hYv := g4.renamed_valid g1 hok.valid g2.to_reflTransGen g3
    refine not_stuck_of_renamed_loop (ρ := ρ) g1 g2 hYv ⟨rfl, rfl, g4.similar⟩ ?_ k1 k2
    rcases g3 with g3 | g3
    · exact .inl (hρ.agree g3.symm)
    · exact .inr (hρ.agree (by simpa using (g3.inv hv₁).symm))
  | finish _ _ hf => cases hf <;> cases hres

open Examples in
/-- The hypotheses can be met: no number of calls finds a saddle connection of the transformation of Arnoux and Yoccoz, after eighteen
iterations of `induce`. -/
example : ∃ E' s', cubicIET.induce PPL.ideal (SLengths.ops cubicArith) 0 18 cubicState =
    .ok (⟨.withoutPeriodicTrajectoryAutoSimilar, none, none⟩, E', s') ∧
    ∀ rs E'' s'', ZorichCalls (SLengths.ops cubicArith) E' s' rs E'' s'' → true ∉ rs := by
  obtain ⟨E', s', h1, h2⟩ := cubic_similar PPL.ideal
  exact ⟨E', s', h1, fun rs E'' s'' hc => C71_no_connection_partial hCubic PPL.ideal_lawful (sample_reachable _ _ cubic_ok)
    (by simp; rfl) h1 rfl (.of_eq h2) hc⟩

namespace Examples

/-- Call `zorichInduction` and `swap` the given number of times; whether any call has returned `true`. -/
def zorichRun (O : LengthsOps σ T) : ℕ → IET T → σ → Bool
  | 0, _, _ => false
  | n + 1, E, s => match E.zorichInduction O s with
    | .ok (r, E', s') => r || zorichRun O n E'.swap s'
    | .error _ => false

theorem zorichRun_calls {O : LengthsOps σ T} {E₀ : IET T} {s₀ : σ} : ∀ (n : ℕ) (E : IET T) (s : σ) (rs : List Bool), ZorichCalls O E₀ s₀ rs E s →
    zorichRun O n E s = true → ∃ rs E' s', ZorichCalls O E₀ s₀ rs E' s' ∧ true ∈ rs
  | 0, _, _, _, _, h => by cases h
  | n + 1, E, s, rs, hc, h => by
    unfold zorichRun at h
    split at h
    · rename_i r E' s' hz
      cases r with
      | true => exact ⟨_, _, _, .zorich hc hz, by simp⟩
      | false => exact zorichRun_calls n _ _ _ (.swap (.zorich hc hz)) (by simpa using h)
    · cases h

/-- The loop has found a similar state, but five more calls to `zorichInduction` find a saddle connection. -/
def foundWrongly (r : M (IET.LoopEnd × IET (Quad 13) × SLengths (Quad 13))) : Bool := match r with
  | .ok (e, E', s') => decide (e = .autoSimilar) && zorichRun (SLengths.ops Quad.arith) 5 E' s'
  | .error _ => false

theorem order_run : foundWrongly (orderIET.inducePhase (SLengths.ops Quad.arith) 0 18 orderState) = true := by decide +kernel

/-- `decompose()` was successful; there is a single component, `withoutPeriodicTrajectory()` is true and no connection has been found,
but five calls to `zorichInduction` find a saddle connection. -/
def decomposedWrongly (r : M (Bool × Decomp (SLengths (Quad 13)) (Quad 13))) : Bool := match r with
  | .ok (b, D) => b && match D.comps with
    | [x] => decide (x.withoutPeriodicTrajectory = some true) && zorichRun (LWC.ops (SLengths.ops Quad.arith)) 5 x.iet D.lengths
    | _ => false
  | .error _ => false

/-- The decomposition of this transformation before any steps have been performed. -/
def orderDecomp : Decomp (SLengths (Quad 13)) (Quad 13) :=
  ⟨[{ iet := orderIET }], ⟨orderState, [], ⟨orderIET.top, fun _ => {}⟩, []⟩⟩

theorem orderDecomp_run : decomposedWrongly (orderDecomp.decompose PPL.ideal (SLengths.ops Quad.arith) Decomp.defaultTarget (-1) 20) = true := by
  decide +kernel

end Examples

open Examples in
/-- **C71** is false in general: `induce` reports WITHOUT_PERIODIC_TRAJECTORY_AUTO_SIMILAR for an exchange of seven intervals, but
calling `zorichInduction` and `swap` a few times then finds a saddle connection. -/
theorem C71_refuted (L : PPL) : ∃ E' s' rs E'' s'',
    orderIET.induce L (SLengths.ops Quad.arith) 0 18 orderState = .ok (⟨.withoutPeriodicTrajectoryAutoSimilar, none, none⟩, E', s') ∧
    ZorichCalls (SLengths.ops Quad.arith) E' s' rs E'' s'' ∧ true ∈ rs := by
  have h := order_run
  unfold foundWrongly at h
  split at h
  · rename_i e E' s' hr
    rw [Bool.and_eq_true, decide_eq_true_eq] at h
    obtain ⟨rs, E'', s'', h1, h2⟩ := zorichRun_calls 5 E' s' [] .nil h.2
    refine ⟨E', s', rs, E'', s'', ?_, h1, h2⟩
    rw [IET.induce, if_neg (by decide), hr]
    simp only [bind, Except.bind, h.1, if_true, pure, Except.pure]
  · cases h

open Examples in
/-- The same with a decomposition: `decompose()` (unlimited, with the default target) returns true; there is one component, for which
`withoutPeriodicTrajectory()` is true.  But this component still has a saddle connection that can be found by induction, so it could have
been decomposed further. -/
theorem C71_decompose_refuted : ∃ D D' x rs E'' s'', Decomp.make (SLengths.ops Quad.arith) orderIET orderState = .ok D ∧
    D.decompose PPL.ideal (SLengths.ops Quad.arith) Decomp.defaultTarget (-1) 20 = .ok (true, D') ∧ D'.comps = [x] ∧
    x.withoutPeriodicTrajectory = some true ∧
    ZorichCalls (LWC.ops (SLengths.ops Quad.arith)) x.iet D'.lengths rs E'' s'' ∧ true ∈ rs := by
  have h := orderDecomp_run
  unfold decomposedWrongly at h
  split at h
  · rename_i b D' hr
    rw [Bool.and_eq_true] at h
    obtain ⟨rfl, h2⟩ := h
    split at h2
    · rename_i x hx
      rw [Bool.and_eq_true, decide_eq_true_eq] at h2
      obtain ⟨rs, E'', s'', h3, h4⟩ := zorichRun_calls 5 _ _ [] .nil h2.2
      refine ⟨orderDecomp, D', x, rs, E'', s'', ?_, hr, hx, h2.1, h3, h4⟩
      obtain ⟨D₀, g1, g2, _⟩ := Decomp.make_spec hQ13 (ι := AddMonoidHom.id (Quad 13)) (fun _ _ h => h) order_ok
      rw [g1]
      simp only [Decomp.make, bind, Except.bind, pure, Except.pure] at g1
      split at g1 <;> cases g1
      cases g2
      rfl
    · cases h2
  · cases h

open Examples in
/-- The IET of `C71_refuted` is one that a caller can construct. -/
example : Reachable hQ13 PPL.ideal ⟨[orderIET], orderState⟩ := sample_reachable _ _ order_ok

end Verif
