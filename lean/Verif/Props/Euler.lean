import Verif.Proofs.Euler
import Verif.Props.Genus

/-!
# C93: Euler's formula

The number of intervals determines the number of singularities of the surface once the genus is known. So induction does not change the singularities, and the
number of components is bounded by the genus and the number of singularities.
-/

namespace Verif

set_option linter.unusedSectionVars false

variable {σ T P ε : Type} [CommRing T] [LinearOrder T] [IsStrictOrderedRing T] [CommRing P] [LinearOrder P] [IsStrictOrderedRing P]
  {O : LengthsOps σ T} {d : ℕ} {c : T →+ (Fin d → ℚ)}

/-- How many singularities (and marked points) the surface has of which the IET is a first return map. -/
noncomputable def IET.singularities (E : IET T) : ℕ := Nat.card (Vertex E.top E.bottom)

theorem euler_valid (H : LawfulLengths O c ε) {E : IET T} {s : σ} (h : (H.abs E s).Valid) : E.singularities + 2 * E.genus = E.top.length + 1 := by
  rw [← IET.rank_eq H h]
  exact card_vertex h.nodup h.perm h.ne_nil

/-- **C93** Euler's formula: a connected surface that is made from one polygon with `E.top.length` pairs of sides. -/
theorem C93_euler (H : LawfulLengths O c ε) {E : IET T} {s : σ} (h : H.Ok E s) : E.singularities + 2 * E.genus = E.top.length + 1 :=
  euler_valid H h.valid

/-- **C93** Induction changes neither the genus nor the number of singularities. -/
theorem C93_zorich (H : LawfulLengths O c ε) {E : IET T} {s : σ} (h : H.Ok E s) :
    ∃ r E' s', E.zorichInduction O s = .ok (r, E', s') ∧ E'.genus = E.genus ∧ E'.singularities = E.singularities := by
  obtain ⟨r, E', s', h1, h2⟩ := zorichInduction_spec H E s h
  have e1 := h2.run.steps.rank h.valid
  have e2 := h2.run.steps.length h.valid
  have e3 : E'.top.length = E.top.length := e2
  rw [IET.rank_eq H h.valid, IET.rank_eq H h2.ok.valid] at e1
  have e4 := C93_euler H h
  have e5 := C93_euler H h2.ok
  exact ⟨r, E', s', h1, by omega, by omega⟩

/-- **C93** So does exchanging the rows. -/
theorem C93_swap (H : LawfulLengths O c ε) {E : IET T} {s : σ} (h : H.Ok E s) : E.swap.genus = E.genus ∧ E.swap.singularities = E.singularities := by
  have e1 : (H.abs E.swap s).rank = (H.abs E s).rank := AIET.rank_inv h.valid
  have hv : (H.abs E.swap s).Valid := h.valid.inv
  have e2 : E.swap.top.length = E.top.length := h.valid.perm.length_eq
  rw [IET.rank_eq H h.valid, IET.rank_eq H hv] at e1
  have e4 := euler_valid H h.valid
  have e5 := euler_valid H hv
  omega

/-- The singularities on all the surfaces. -/
noncomputable def World.singularities (w : World σ T) : ℕ := (w.pieces.map IET.singularities).sum

theorem euler_map (H : LawfulLengths O c ε) (s : σ) (l : List (IET T)) (h : ∀ E ∈ l, (H.abs E s).Valid) :
    (l.map IET.singularities).sum + 2 * (l.map IET.genus).sum = (l.map (fun E => E.top.length)).sum + l.length := by
  induction l with
  | nil => rfl
  | cons E l ih =>
    have ih := ih (fun F hF => h F (List.mem_cons_of_mem _ hF))
    have := euler_valid H (h E (by simp))
    simp only [List.map_cons, List.sum_cons, List.length_cons]
    omega

/-- **C93** Euler's formula for all the IETs that exist at some time. -/
theorem C93_world (H : LawfulLengths O c ε) {L : PPL} (hL : L.Lawful) {w : World σ T} (h : Reachable H L w) :
    w.singularities + 2 * w.genus = w.intervals + w.pieces.length :=
  euler_map H w.lengths w.pieces (fun _ hE => (h.good hL hE).ok.valid)

/-- **C93** Calls that do not remove intervals only create singularities when they split surfaces, one singularity for each new surface.  Otherwise, each interval
that is removed takes away or adds at most one singularity. -/
theorem C93_calls (H : LawfulLengths O c ε) {L : PPL} (hL : L.Lawful) {w w' : World σ T} (h : Reachable H L w) {ops : List Op} (hr : Run L O ops w w') :
    (w'.intervals = w.intervals → w'.singularities + w.pieces.length = w.singularities + w'.pieces.length) ∧
    w'.singularities + w.pieces.length + w'.intervals ≤ w.singularities + w'.pieces.length + w.intervals ∧
    w.singularities + w'.pieces.length + w'.intervals ≤ w'.singularities + w.pieces.length + w.intervals := by
  have h1 := C93_world H hL h
  have h2 := C93_world H hL (h.run hr)
  have h3 := C91_calls H hL h hr
  omega

/-- The singularities on all the components. -/
noncomputable def Decomp.singularities (D : Decomp σ T) : ℕ := (D.comps.map (fun x => x.iet.singularities)).sum

/-- **C93** Euler's formula for the components: each separating step adds a singularity and each non-separating one adds or removes at most one. -/
theorem C93_decomposition (H : LawfulLengths O c ε) {L : PPL} (hL : L.Lawful) {E : IET T} {s : σ} (hE : H.Ok E s) {D : Decomp σ T}
    {steps : List DStep} (h : DReach L O E s D steps) :
    D.singularities + 2 * D.genus = D.intervals + D.comps.length ∧
    D.singularities + 1 ≤ E.singularities + D.comps.length + nonSeparatingCount steps ∧
    E.singularities + D.comps.length ≤ D.singularities + 1 + nonSeparatingCount steps := by
  have key : D.singularities + 2 * D.genus = D.intervals + D.comps.length := by
    have h1 := euler_map H D.lengths.inner (D.comps.map (fun x => x.iet)) ?_
    · rw [List.map_map, List.map_map, List.map_map, List.length_map] at h1
      exact h1
    · intro F hF
      obtain ⟨x, hx, rfl⟩ := List.mem_map.mp hF
      exact h.valid hL H hE x hx
  have h1 := C93_euler H hE
  have h2 := C91_decomposition H hL hE h
  obtain ⟨-, h3⟩ := h.counts H hL hE
  refine ⟨key, ?_, ?_⟩ <;> omega

/-- **C93** The classical bound: at any time there are fewer components than the genus plus the number of singularities. -/
theorem C93_components (H : LawfulLengths O c ε) {L : PPL} (hL : L.Lawful) {E : IET T} {s : σ} (hE : H.Ok E s) {D : Decomp σ T}
    {steps : List DStep} (h : DReach L O E s D steps) : D.comps.length < E.genus + E.singularities := by
  have h1 := C93_euler H hE
  have h2 := C91_components H hL hE h
  omega

open Examples in
/-- An example: two rotations next to each other are on a surface of genus two with one singularity and the bound is attained. -/
theorem C93_attained : ∃ D steps, DReach PPL.ideal (SLengths.ops q2Arith) twoRotIET twoRotState D steps ∧ twoRotIET.genus = 2 ∧
    twoRotIET.singularities = 1 ∧ D.comps.length = 2 := by
  obtain ⟨D, steps, h1, h2, h3, -⟩ := C91_attained
  have h4 := C93_euler hQ2 twoRot_ok
  have h5 : twoRotIET.top.length = 4 := rfl
  have h6 := C93_components hQ2 PPL.ideal_lawful twoRot_ok h1
  have h8 := List.length_filter_le (fun x : Comp Q2 => decide (x.iet.top.head? ≠ x.iet.bottom.head?)) D.comps
  refine ⟨D, steps, h1, h2, by omega, by omega⟩

end Verif
