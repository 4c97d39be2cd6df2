import Verif.Proofs.Itinerary
import Verif.Props.Found

/-!
# C77: cylinders are the sets of points with a given periodic itinerary
-/

namespace Verif

set_option linter.unusedSectionVars false

variable {σ T ε : Type} [CommRing T] [LinearOrder T] [IsStrictOrderedRing T] {O : LengthsOps σ T} {d : ℕ} {c : T →+ (Fin d → ℚ)}
variable {P : Type} [CommRing P] [LinearOrder P] [IsStrictOrderedRing P]

theorem pcs_zip (H : LawfulLengths O c ε) (ι : T →+ P) {D : Decomp σ T} {oc : List (P × Comp T)} (h : oc.map Prod.snd = D.comps) :
    (oc.map Prod.fst).zip (D.comps.map (fun x => (H.abs x.iet D.lengths.inner).map ι)) = pcs H ι D.lengths.inner oc := by
  rw [← h, List.map_map, pcs, List.zip_map']
  rfl

/-- **C77** In every state of a decomposition, the components are at offsets such that
* they describe the original IET (`Covers`, see C34),
* two periodic points whose orbits visit the same intervals of the original IET in the same order always belong to the same component, i.e., what has such an
  itinerary is never taken apart,
* a component with a single interval consists of exactly the points which have the same itinerary as any of its points. -/
theorem C77_itineraries (H : LawfulLengths O c ε) {L : PPL} (hL : L.Lawful) {E : IET T} {s : σ} (hE : H.Ok E s) {D : Decomp σ T}
    {steps : List DStep} (h : DReach L O E s D steps) {ι : T →+ P} (hι : StrictMono ι) :
    ∃ os : List P, os.length = D.comps.length ∧
      Covers ((H.abs E s).map ι) (os.zip (D.comps.map (fun x => (H.abs x.iet D.lengths.inner).map ι))) ∧
      ∀ p ∈ os.zip (D.comps.map (fun x => (H.abs x.iet D.lengths.inner).map ι)),
        (∀ x y, ((H.abs E s).map ι).Twins x y → (Meets ((H.abs E s).map ι) p x ↔ Meets ((H.abs E s).map ι) p y)) ∧
        (p.2.top.length = 1 → ∀ x, Inside p x → ∀ y, ((H.abs E s).map ι).Twins x y ↔ Inside p y) := by
  obtain ⟨oc, h1, h2⟩ := (h.inv hL H hι hE).track
  refine ⟨oc.map Prod.fst, by rw [← h1]; simp, ?_, ?_⟩ <;> rw [pcs_zip H ι h1]
  · exact h2.cover
  · exact fun p hp => ⟨fun x y hxy => h2.meets_iff hp hxy, fun hl x hx y => h2.twins_iff hp hl hx y⟩

theorem AIET.map_id' (A : AIET T) : A.map (AddMonoidHom.id T) = A := rfl

/-- The lengths of the cylinders are the widths of the intervals that consist of points with the same periodic itinerary. -/
theorem spans_cylinders (H : LawfulLengths O c ε) {D : Decomp σ T} {oc : List (T × Comp T)} (h : oc.map Prod.snd = D.comps) :
    (spans (pcs H (AddMonoidHom.id T) D.lengths.inner oc)).map Prod.snd = (D.cylinders H).map Prod.snd := by
  unfold Decomp.cylinders
  rw [← h]
  clear h
  induction oc with
  | nil => rfl
  | cons q oc ih =>
    simp only [spans, pcs, List.map_cons, List.filterMap_cons] at ih ⊢
    by_cases hl : q.2.iet.top.length = 1
    · obtain ⟨a, ha⟩ := List.length_eq_one_iff.mp hl
      have hl' : ((H.abs q.2.iet D.lengths.inner).map (AddMonoidHom.id T)).top.length = 1 := hl
      rw [if_pos hl', ha]
      simp only [List.map_cons, ih, List.cons.injEq, and_true]
      simp only [AIET.total, AIET.map, LawfulLengths.abs, ha, sumLen_cons, sumLen_nil, add_zero]
      rfl
    · have hl' : ¬ ((H.abs q.2.iet D.lengths.inner).map (AddMonoidHom.id T)).top.length = 1 := hl
      rw [if_neg hl']
      simp only [ih]
      split
      · rfl
      · rename_i v hv
        exfalso
        revert hv
        split
        · rename_i a ha; exact absurd (by rw [ha]; rfl) hl
        · simp

theorem DReach.cylinderSystem (H : LawfulLengths O c ε) {L : PPL} (hL : L.Lawful) {E : IET T} {s : σ} (hE : H.Ok E s) {D : Decomp σ T}
    {steps : List DStep} (h : DReach L O E s D steps) :
    ∃ cs, CylinderSystem (H.abs E s) cs ∧ (D.Settled H → Exhausts (H.abs E s) cs) ∧ cs.map Prod.snd = (D.cylinders H).map Prod.snd := by
  obtain ⟨oc, h1, h2⟩ := (h.inv hL H (ι := AddMonoidHom.id T) (fun _ _ h => h) hE).track
  refine ⟨_, h2.system, fun hs => h2.exhausts (fun p hp => ?_), spans_cylinders H h1⟩
  obtain ⟨q, hq, rfl⟩ := List.mem_map.mp hp
  exact hs q.2 (by rw [← h1]; exact List.mem_map_of_mem hq)

/-- **C77** Once each component has a single interval or no periodic points, the periodic points of the original IET are exactly the points whose orbits get to a
component with a single interval. -/
theorem C77_periodic (H : LawfulLengths O c ε) {L : PPL} (hL : L.Lawful) {E : IET T} {s : σ} (hE : H.Ok E s) {D : Decomp σ T}
    {steps : List DStep} (h : DReach L O E s D steps) (hD : D.Settled H) :
    ∃ os : List T, os.length = D.comps.length ∧ Covers (H.abs E s) (os.zip (D.comps.map (fun x => H.abs x.iet D.lengths.inner))) ∧
      ∀ x, Periodic (H.abs E s).Maps x ↔
        ∃ p ∈ os.zip (D.comps.map (fun x => H.abs x.iet D.lengths.inner)), p.2.top.length = 1 ∧ Meets (H.abs E s) p x := by
  obtain ⟨oc, h1, h2⟩ := (h.inv hL H (ι := AddMonoidHom.id T) (fun _ _ h => h) hE).track
  have e : (oc.map Prod.fst).zip (D.comps.map (fun x => H.abs x.iet D.lengths.inner)) = pcs H (AddMonoidHom.id T) D.lengths.inner oc := pcs_zip H (AddMonoidHom.id T) h1
  refine ⟨oc.map Prod.fst, by rw [← h1]; simp, ?_, ?_⟩ <;> rw [e]
  · exact h2.cover
  · intro x
    constructor
    · intro hx
      obtain ⟨cy, hc, y, h3, h4⟩ := h2.exhausts (fun p hp => by
        obtain ⟨q, hq, rfl⟩ := List.mem_map.mp hp
        exact hD q.2 (by rw [← h1]; exact List.mem_map_of_mem hq)) x hx
      obtain ⟨p, hp, hl, rfl⟩ := mem_spans.mp hc
      exact ⟨p, hp, hl, y, h3, h4⟩
    · rintro ⟨p, hp, hl, hm⟩
      exact periodic_of_meets h2.base (h2.cover.valid p hp) (h2.cover.maps p hp) hl hm

/-- **C77** Decompose an IET and, separately, the IET with `swap()` applied to it, i.e., the inverse transformation.  If in the second decomposition each component
has a single interval or no periodic points, then the lengths of the cylinders of the first one are among the lengths of the cylinders of the second one. -/
theorem C77_swap (H : LawfulLengths O c ε) {L : PPL} (hL : L.Lawful) {E : IET T} {s : σ} (hE : H.Ok E s) {D₁ D₂ : Decomp σ T}
    {steps₁ steps₂ : List DStep} (h₁ : DReach L O E s D₁ steps₁) (h₂ : DReach L O E.swap s D₂ steps₂) (hD₂ : D₂.Settled H) :
    ((D₁.cylinders H).map Prod.snd).Subperm ((D₂.cylinders H).map Prod.snd) := by
  obtain ⟨cs₁, h3, -, e₁⟩ := h₁.cylinderSystem H hL hE
  obtain ⟨cs₂, h4, h5, e₂⟩ := h₂.cylinderSystem H hL hE.swap
  rw [H.abs_swap] at h4 h5
  rw [← e₁, ← e₂]
  exact h3.subperm hE.valid (h4.of_inv hE.valid) ((h5 hD₂).of_inv hE.valid)

/-- **C77** If this is so for both decompositions then there are the same number of cylinders of each length. -/
theorem C77_swap_same (H : LawfulLengths O c ε) {L : PPL} (hL : L.Lawful) {E : IET T} {s : σ} (hE : H.Ok E s) {D₁ D₂ : Decomp σ T}
    {steps₁ steps₂ : List DStep} (h₁ : DReach L O E s D₁ steps₁) (h₂ : DReach L O E.swap s D₂ steps₂) (hD₁ : D₁.Settled H) (hD₂ : D₂.Settled H) :
    ((D₁.cylinders H).map Prod.snd).Perm ((D₂.cylinders H).map Prod.snd) :=
  (C77_swap H hL hE h₁ h₂ hD₂).antisymm (C77_swap H hL hE.swap h₂ (by rw [IET.swap_swap]; exact h₁) hD₁)

/-! ### An example -/

namespace Examples

/-- The decomposition of the inverse of `twoIET`. -/
noncomputable def swappedCylinders (calls : List (ℤ × ℕ)) : Option (List DResult × List (List Label) × List (Label × ℤ)) :=
  match Decomp.runFrom PPL.ideal (SLengths.ops intArith) twoIET.swap twoState 20 calls with
  | .ok (r : List DStep × Decomp (SLengths ℤ) ℤ) =>
    some (r.1.map DStep.result, r.2.comps.map (fun x : Comp ℤ => x.iet.top), r.2.cylinders hInt)
  | .error _ => none

/-- The lengths of the cylinders are those of `two_run` but the labels are not. -/
theorem two_swapped : swappedCylinders [(-1, 0), (-1, 1), (-1, 0), (-1, 0), (-1, 1), (-1, 1)] =
    some ([.separatingConnection, .nonSeparatingConnection, .nonSeparatingConnection, .cylinder, .separatingConnection, .cylinder],
      [[0], [3], [2]], [(0, 2), (3, 3), (2, 3)]) := rfl

theorem settled_of_singles {D : Decomp (SLengths ℤ) ℤ} {ls : List (List Label)} (h : D.comps.map (fun x : Comp ℤ => x.iet.top) = ls)
    (hl : ∀ l ∈ ls, l.length = 1) : D.Settled hInt :=
  fun _ hx => .inl (hl _ (h ▸ List.mem_map_of_mem (f := fun x : Comp ℤ => x.iet.top) hx))

/-- Both decompositions have been completed, so `C77_swap_same` explains why the lengths are the same. -/
example : ∃ D₁ D₂ steps₁ steps₂, DReach PPL.ideal (SLengths.ops intArith) twoIET twoState D₁ steps₁ ∧
    DReach PPL.ideal (SLengths.ops intArith) twoIET.swap twoState D₂ steps₂ ∧ D₁.cylinders hInt = [(1, 2), (3, 3), (4, 3)] ∧
    D₂.cylinders hInt = [(0, 2), (3, 3), (2, 3)] ∧ ((D₁.cylinders hInt).map Prod.snd).Perm ((D₂.cylinders hInt).map Prod.snd) := by
  obtain ⟨st₁, D₁, h1, h2, h3, h4⟩ := of_cylindersAfter two_run
  have h := two_swapped
  unfold swappedCylinders at h
  split at h
  · rename_i r hr
    simp only [Option.some.injEq, Prod.mk.injEq] at h
    obtain ⟨g1, g2, g3⟩ := h
    exact ⟨D₁, r.2, st₁, r.1, h1, .runFrom hr, h4, g3, C77_swap_same hInt PPL.ideal_lawful two_ok h1 (.runFrom hr)
      (settled_of_singles h3 (by decide)) (settled_of_singles g2 (by decide))⟩
  · cases h

/-- In `twoIET`, the points 0 and 1 are periodic points with the same itinerary, so they are in the same component in every state of every decomposition. -/
example : (hInt.abs twoIET twoState).Twins 0 1 := by
  exact ⟨[0, 0, 1, 0, 0, 1, 0, 1], by simp, ⟨6, ⟨by decide, by decide, by decide, by decide⟩, 12, ⟨by decide, by decide, by decide, by decide⟩, 2, ⟨by decide, by decide, by decide, by decide⟩, 8, ⟨by decide, by decide, by decide, by decide⟩, 14, ⟨by decide, by decide, by decide, by decide⟩, 4, ⟨by decide, by decide, by decide, by decide⟩, 10, ⟨by decide, by decide, by decide, by decide⟩, 0, ⟨by decide, by decide, by decide, by decide⟩, rfl⟩,
    ⟨7, ⟨by decide, by decide, by decide, by decide⟩, 13, ⟨by decide, by decide, by decide, by decide⟩, 3, ⟨by decide, by decide, by decide, by decide⟩, 9, ⟨by decide, by decide, by decide, by decide⟩, 15, ⟨by decide, by decide, by decide, by decide⟩, 5, ⟨by decide, by decide, by decide, by decide⟩, 11, ⟨by decide, by decide, by decide, by decide⟩, 1, ⟨by decide, by decide, by decide, by decide⟩, rfl⟩⟩

end Examples

end Verif
