import Verif.Proofs.Confluence
import Verif.Props.SelfSimilar
import Verif.Props.Target
import Verif.Proofs.Sample

/-!
# C72: the cylinders do not depend on how one decomposes
-/

namespace Verif

set_option linter.unusedSectionVars false

variable {σ T ε : Type} [CommRing T] [LinearOrder T] [IsStrictOrderedRing T] {O : LengthsOps σ T} {d : ℕ} {c : T →+ (Fin d → ℚ)}

/-- The label and the length of the only interval of the components that have a single interval. -/
def Decomp.cylinders (H : LawfulLengths O c ε) (D : Decomp σ T) : List (Label × T) :=
  D.comps.filterMap (fun x => match x.iet.top with
    | [a] => some (a, H.len D.lengths.inner a)
    | _ => none)

/-- Every component has a single interval or no periodic points. -/
def Decomp.Settled (H : LawfulLengths O c ε) (D : Decomp σ T) : Prop :=
  ∀ x ∈ D.comps, x.iet.top.length = 1 ∨ ¬ ∃ y, Periodic (H.abs x.iet D.lengths.inner).Maps y

theorem Decomp.singles_parts (H : LawfulLengths O c ε) (D : Decomp σ T) :
    (singles (D.parts H)).map (fun A => (A.top.headD 0, A.len (A.top.headD 0))) = ((D.cylinders H : List (Label × T)) : Multiset (Label × T)) := by
  classical
  unfold singles Decomp.parts Decomp.cylinders
  induction D.comps with
  | nil => rfl
  | cons x l ih =>
    rw [List.map_cons, ← Multiset.cons_coe, List.filterMap_cons]
    by_cases hx : x.iet.top.length = 1
    · obtain ⟨a, ha⟩ := List.length_eq_one_iff.mp hx
      rw [Multiset.filter_cons_of_pos (p := fun A : AIET T => A.top.length = 1) _ (by simpa [AIET.norm, LawfulLengths.abs] using hx), Multiset.map_cons, ih]
      simp only [ha, AIET.norm, LawfulLengths.abs]
      simp
    · rw [Multiset.filter_cons_of_neg (p := fun A : AIET T => A.top.length = 1) _ (by simpa [AIET.norm, LawfulLengths.abs] using hx), ih]
      split
      · rfl
      · rename_i v hv
        exfalso
        revert hv
        split
        · rename_i a ha; exact absurd (by rw [ha]; rfl) hx
        · simp

theorem Decomp.Settled.parts {H : LawfulLengths O c ε} {D : Decomp σ T} (h : D.Settled H) (hv : ∀ x ∈ D.comps, (H.abs x.iet D.lengths.inner).Valid) :
    Verif.Settled (D.parts H) := by
  intro A hA
  unfold Decomp.parts at hA
  rw [Multiset.mem_coe, List.mem_map] at hA
  obtain ⟨x, hx, rfl⟩ := hA
  rw [AIET.norm_maps (hv x hx)]
  exact h x hx

theorem DReach.valid {L : PPL} (hL : L.Lawful) (H : LawfulLengths O c ε) {E : IET T} {s : σ} (hE : H.Ok E s) {D : Decomp σ T} {steps : List DStep}
    (h : DReach L O E s D steps) : ∀ x ∈ D.comps, (H.abs x.iet D.lengths.inner).Valid :=
  fun x hx => ((h.inv hL H (ι := AddMonoidHom.id T) (fun _ _ h => h) hE).good x hx).ok.valid

theorem Decomp.cylinders_subperm {H : LawfulLengths O c ε} {D₁ D₂ : Decomp σ T} (h : singles (D₁.parts H) ≤ singles (D₂.parts H)) :
    (D₁.cylinders H).Subperm (D₂.cylinders H) := by
  rw [← Multiset.coe_le, ← Decomp.singles_parts, ← Decomp.singles_parts]
  exact Multiset.map_le_map h

/-- **C72** Decompose an IET in two ways, i.e., by steps on any components, in any order, with any limits.  If in the second decomposition
each component has a single interval or no periodic points, then every cylinder of the first one is a cylinder of the second one: it has the
same label and the same length. -/
theorem C72_cylinders (H : LawfulLengths O c ε) {L : PPL} (hL : L.Lawful) {E : IET T} {s : σ} (hE : H.Ok E s) {D₁ D₂ : Decomp σ T}
    {steps₁ steps₂ : List DStep} (h₁ : DReach L O E s D₁ steps₁) (h₂ : DReach L O E s D₂ steps₂) (hD₂ : D₂.Settled H) :
    (D₁.cylinders H).Subperm (D₂.cylinders H) :=
  Decomp.cylinders_subperm ((h₁.rws hL H hE).singles_le_of_settled (h₂.rws hL H hE) (hD₂.parts (h₂.valid hL H hE)))

/-- **C72** If this is so for both decompositions then they have the same cylinders. -/
theorem C72_same (H : LawfulLengths O c ε) {L : PPL} (hL : L.Lawful) {E : IET T} {s : σ} (hE : H.Ok E s) {D₁ D₂ : Decomp σ T}
    {steps₁ steps₂ : List DStep} (h₁ : DReach L O E s D₁ steps₁) (h₂ : DReach L O E s D₂ steps₂) (hD₁ : D₁.Settled H) (hD₂ : D₂.Settled H) :
    (D₁.cylinders H).Perm (D₂.cylinders H) :=
  (C72_cylinders H hL hE h₁ h₂ hD₂).antisymm (C72_cylinders H hL hE h₂ h₁ hD₁)

theorem DReachOrdered.reach {L : PPL} {E : IET T} {s : σ} {D : Decomp σ T} {steps : List DStep} (h : DReachOrdered L O E s D steps) :
    DReach L O E s D steps := by
  induction h with
  | init h => exact .init h
  | step fuel limit i _ h _ ih => exact .step fuel limit i ih h

theorem AIET.maps_map {P : Type} [CommRing P] [LinearOrder P] [IsStrictOrderedRing P] {ι : T →+ P} (hι : StrictMono ι) {A : AIET T} {x y : T}
    (h : A.Maps x y) : (A.map ι).Maps (ι x) (ι y) := by
  obtain ⟨a, h1, h2, h3, rfl⟩ := h
  refine ⟨a, h1, ?_, ?_, ?_⟩
  · simp only [AIET.map, off_map]; exact hι.monotone h2
  · simp only [AIET.map, off_map, ← map_add]; exact hι h3
  · simp only [AIET.map, off_map, map_add, map_sub]

/-- **C72** Two decompositions whose components are all marked as a cylinder or as without periodic trajectory have the same
cylinders, provided that lengths are real numbers (`ι`) and that AUTO_SIMILAR has only been reported for components that were aligned with the state which the similarity tracker remembers (see C23). -/
theorem C72_marked {P : Type} [Field P] [LinearOrder P] [IsStrictOrderedRing P] [Archimedean P] {ι : T →+* P} (hι : StrictMono ι) (H : LawfulLengths O c ε) {L : PPL} (hL : L.Lawful) {E : IET T} {s : σ} (hE : H.Ok E s) {D₁ D₂ : Decomp σ T}
    {steps₁ steps₂ : List DStep} (h₁ : DReachOrdered L O E s D₁ steps₁) (h₂ : DReachOrdered L O E s D₂ steps₂)
    (hD₁ : ∀ x ∈ D₁.comps, x.cylinder = some true ∨ x.withoutPeriodicTrajectory = some true)
    (hD₂ : ∀ x ∈ D₂.comps, x.cylinder = some true ∨ x.withoutPeriodicTrajectory = some true) :
    (D₁.cylinders H).Perm (D₂.cylinders H) := by
  have key : ∀ {D : Decomp σ T} {steps : List DStep}, DReachOrdered L O E s D steps →
      (∀ x ∈ D.comps, x.cylinder = some true ∨ x.withoutPeriodicTrajectory = some true) → D.Settled H := by
    intro D steps h hD x hx
    rcases hD x hx with h' | h'
    · exact .inl (((h.inv hL H (ι := AddMonoidHom.id T) (fun _ _ h => h) hE).flags x hx).cylinder h')
    · refine .inr (fun ⟨y, hy⟩ => C37_selfSimilar_partial H hL hE h hx h' hι ⟨ι y, ?_⟩)
      exact Relation.TransGen.lift ι (fun a b hab => AIET.maps_map (ι := (ι : T →+ P)) hι hab) _ _ hy
  exact C72_same H hL hE h₁.reach h₂.reach (key h₁ hD₁) (key h₂ hD₂)

/-- **C72** It also makes no difference to perform induction on the IET before it is decomposed: all cylinders in a decomposition of what `induce()`
left behind are cylinders of the original IET, with the same label and length. -/
theorem C72_induce (H : LawfulLengths O c ε) {L : PPL} (hL : L.Lawful) {w : World σ T} (h : Reachable H L w) {E E' : IET T} {s' : σ}
    {step : InductionStep T} {fuel : ℕ} {limit : ℤ} (hE : E ∈ w.pieces) (hr : E.induce L O fuel limit w.lengths = .ok (step, E', s'))
    {D₁ D₂ : Decomp σ T} {steps₁ steps₂ : List DStep} (h₁ : DReach L O E' s' D₁ steps₁) (h₂ : DReach L O E w.lengths D₂ steps₂) (hD₂ : D₂.Settled H) :
    (D₁.cylinders H).Subperm (D₂.cylinders H) := by
  have hg := h.good hL hE
  obtain ⟨hspec, hg'⟩ := h.induce hL hE hr
  have h2 := h₂.rws hL H hg.ok
  have h1 := h₁.rws hL H hg'.ok
  have hset := hD₂.parts (h₂.valid hL H hg.ok)
  have simple : Rws {(H.abs E w.lengths).norm} {(H.abs E' s').norm} → (D₁.cylinders H).Subperm (D₂.cylinders H) := fun h0 =>
    Decomp.cylinders_subperm (Rws.singles_le_of_settled (h0.trans h1) h2 hset)
  have hstep := hspec.stepSpec
  cases hstep with
  | cylinder hm _ => exact simple (Steps.rws hg.ok.valid hm.steps)
  | auto hm _ _ _ => exact simple (Steps.rws hg.ok.valid hm.steps)
  | @finish E₁ _ _ _ hm hf =>
    have hv₁ := (hm.ok hg.ok).valid
    have h0 := Steps.rws hg.ok.valid hm.steps
    cases hf with
    | limit ht hb _ _ _ =>
      refine simple ?_
      have : H.abs E' s' = H.abs E₁ s' := by simp [LawfulLengths.abs, ht, hb]
      rw [this]; exact h0
    | boshernitzan ht hb _ _ _ _ =>
      refine simple ?_
      have : H.abs E' s' = H.abs E₁ s' := by simp [LawfulLengths.abs, ht, hb]
      rw [this]; exact h0
    | nonSeparating hirr _ _ _ _ hmerge => exact simple (h0.tail ((Ev.merge hirr hmerge).rw hv₁))
    | @separating _ F k b t hcut _ _ _ _ =>
      have h3 := h0.tail ((Ev.split hcut).rw hv₁)
      have h4 := h1.add {(H.abs F s').norm}
      have h5 : Rws {(H.abs E w.lengths).norm} (D₁.parts H + {(H.abs F s').norm}) := h3.trans (by simpa [Multiset.insert_eq_cons] using h4)
      refine Decomp.cylinders_subperm (le_trans ?_ (h5.singles_le_of_settled h2 hset))
      unfold singles
      rw [Multiset.filter_add]
      exact Multiset.le_add_right _ _

namespace Examples

/-- Five intervals with integer lengths that form two separate transformations. -/
def twoIET : IET ℤ := .fresh [0, 1, 2, 3, 4] [1, 0, 3, 4, 2]
/-- Their lengths. -/
def twoState : SLengths ℤ := ⟨[], [10, 6, 6, 3, 9]⟩

theorem two_ok : hInt.Ok twoIET twoState := sample_ok _ _ _ _ (by decide)

/-- The results of the steps and the labels and cylinders that one gets. -/
noncomputable def cylindersAfter (calls : List (ℤ × ℕ)) : Option (List DResult × List (List Label) × List (Label × ℤ)) :=
  match Decomp.runFrom PPL.ideal (SLengths.ops intArith) twoIET twoState 20 calls with
  | .ok (r : List DStep × Decomp (SLengths ℤ) ℤ) =>
    some (r.1.map DStep.result, r.2.comps.map (fun x : Comp ℤ => x.iet.top), r.2.cylinders hInt)
  | .error _ => none

theorem two_run : cylindersAfter [(0, 0), (-1, 1), (-1, 0), (-1, 0), (-1, 1), (-1, 1)] =
    some ([.separatingConnection, .nonSeparatingConnection, .nonSeparatingConnection, .cylinder, .separatingConnection, .cylinder],
      [[1], [3], [4]], [(1, 2), (3, 3), (4, 3)]) := rfl

/-- Other limits and another order. -/
theorem two_run' : cylindersAfter [(2, 0), (1, 0), (-1, 1)] =
    some ([.separatingConnection, .nonSeparatingConnection, .nonSeparatingConnection], [[1], [3, 4]], [(1, 2)]) := rfl

theorem of_cylindersAfter {calls : List (ℤ × ℕ)} {rs : List DResult} {ls : List (List Label)} {cs : List (Label × ℤ)}
    (h : cylindersAfter calls = some (rs, ls, cs)) : ∃ steps D, DReach PPL.ideal (SLengths.ops intArith) twoIET twoState D steps ∧
      steps.map DStep.result = rs ∧ D.comps.map (fun x : Comp ℤ => x.iet.top) = ls ∧ D.cylinders hInt = cs := by
  unfold cylindersAfter at h
  split at h
  · rename_i r hr
    cases h
    exact ⟨r.1, r.2, .runFrom hr, rfl, rfl, rfl⟩
  · cases h

/-- The cylinders found by the second way to decompose have been found by the first one, which has finished, too. -/
example : ∃ D₁ D₂ steps₁ steps₂, DReach PPL.ideal (SLengths.ops intArith) twoIET twoState D₁ steps₁ ∧
    DReach PPL.ideal (SLengths.ops intArith) twoIET twoState D₂ steps₂ ∧ D₂.Settled hInt ∧ D₁.cylinders hInt = [(1, 2)] ∧
    D₂.cylinders hInt = [(1, 2), (3, 3), (4, 3)] ∧ (D₁.cylinders hInt).Subperm (D₂.cylinders hInt) := by
  obtain ⟨st₂, D₂, h1, h2, h3, h4⟩ := of_cylindersAfter two_run
  obtain ⟨st₁, D₁, g1, g2, g3, g4⟩ := of_cylindersAfter two_run'
  have hs : D₂.Settled hInt := by
    intro x hx
    have := List.mem_map_of_mem (f := fun x : Comp ℤ => x.iet.top) hx
    rw [h3] at this
    left
    simp only [List.mem_cons, List.not_mem_nil, or_false] at this
    rcases this with e | e | e <;> rw [e] <;> rfl
  exact ⟨D₁, D₂, st₁, st₂, g1, h1, hs, g4, h4, C72_cylinders hInt PPL.ideal_lawful two_ok g1 h1 hs⟩

/-- The same IET as a state that a caller can reach, for `C72_induce`. -/
example : Reachable hInt PPL.ideal ⟨[twoIET], twoState⟩ := sample_reachable _ _ two_ok

end Examples

end Verif
