import Verif.ExamplesDecomp
import Verif.Props.Boundary
import Verif.SpecSurface

/-!
# C60, C61: the contours of components close up in the surface
-/

namespace Verif

set_option linter.unusedSectionVars false

variable {σ T ε : Type} [CommRing T] [LinearOrder T] [IsStrictOrderedRing T] {O : LengthsOps σ T} {d : ℕ} {c : T →+ (Fin d → ℚ)}

/-- The perimeters of all components are closed if all the left and right ends of half edges are consistent. -/
theorem DReach.contours (H : LawfulLengths O c ε) {L : PPL} (hL : L.Lawful) {E : IET T} {s : σ} (hE : H.Ok E s)
    {D : Decomp σ T} {steps : List DStep} (h : DReach L O E s D steps) {lv : Label → Label}
    (hlv : ∀ y ∈ D.comps, ClosedIn E.top E.bottom D.lengths.conns lv y.iet.top y.iet.bottom) {i : ℕ} (hi : i < D.comps.length) :
    ∃ p, D.perimeter i = .ok p ∧ Contour E.top E.bottom lv p := by
  have hinv := h.inv hL H (ι := AddMonoidHom.id T) (fun _ _ h => h) hE
  obtain ⟨p, _, _, _, hp, -⟩ := C50_perimeter H hL hE h hi
  obtain ⟨x, hx⟩ : ∃ x, D.comps[i]? = some x := ⟨_, List.getElem?_eq_getElem hi⟩
  have hxm := List.mem_of_getElem? hx
  obtain ⟨-, -, h3⟩ := C35_partition H hL hE h
  obtain ⟨oc, -, h2⟩ := hinv.track
  have hkeys : D.lengths.conns.keys = E.top := h2.keys
  have hmem : ∀ a ∈ x.iet.top, a ∈ D.lengths.conns.keys := fun a ha =>
    hkeys ▸ h3.mem_iff.mp (List.mem_append_left _ (List.mem_flatMap.mpr ⟨x, hxm, ha⟩))
  have hv := (hinv.good x hxm).ok.valid
  have hperm : x.iet.bottom.Perm x.iet.top := hv.perm
  have htn : x.iet.top ≠ [] := hv.ne_nil
  refine ⟨p, hp, ?_⟩
  unfold Contour
  rw [perimeter_cycle hx (hinv.swapped x hxm) htn (fun e => htn (List.Perm.nil_eq (e ▸ hperm)).symm) hmem
    (fun a ha => hmem a (hperm.mem_iff.mp ha)) hp]
  exact hinv.contour hxm (hlv x hxm) i

/-! ### C60 -/

/-- **C60** In every reachable state, `perimeter()` of each component is a closed contour in the surface given by the original IET: each
of the sides starts at the vertex at which the previous side ended.  The interior is on the left hand side, the angle there is
at most a full turn, it is zero at most between two half edges and a full turn at most between two connections. -/
theorem C60_perimeters (H : LawfulLengths O c ε) {L : PPL} (hL : L.Lawful) {E : IET T} {s : σ} (hE : H.Ok E s)
    {D : Decomp σ T} {steps : List DStep} (h : DReach L O E s D steps) :
    ∃ lv, ∀ i < D.comps.length, ∃ p, D.perimeter i = .ok p ∧ Contour E.top E.bottom lv p := by
  have hinv := h.inv hL H (ι := AddMonoidHom.id T) (fun _ _ h => h) hE
  obtain ⟨lv, hlv⟩ := hinv.closed
  exact ⟨lv, fun i hi => h.contours H hL hE hlv hi⟩

/-! ### C61 -/

/-- **C61** When a step of the decomposition reports a connection, then it reports an equivalent path, and not otherwise.  Going up along the
connection and back along this path, i.e., through its sides in reverse order and with the connections reversed, is a closed contour,
just like the perimeters of all components after the step (for the same left ends of the half edges). -/
theorem C61_equivalent (H : LawfulLengths O c ε) {L : PPL} (hL : L.Lawful) {E : IET T} {s : σ} (hE : H.Ok E s)
    {D D' : Decomp σ T} {steps : List DStep} (h : DReach L O E s D steps) {fuel : ℕ} {limit : ℤ} {i : ℕ} {step : DStep}
    (hr : D.decompositionStep L O fuel limit i = .ok (step, D')) :
    (step.connection = none → step.equivalent = none) ∧
    ∃ lv, (∀ j < D'.comps.length, ∃ p, D'.perimeter j = .ok p ∧ Contour E.top E.bottom lv p) ∧
      ∀ conn, step.connection = some conn → ∃ eqv, step.equivalent = some eqv ∧
        Contour E.top E.bottom lv (.conn conn :: eqv.reverse.map Side.flip) := by
  obtain ⟨x, hx, he, -, -, lv, h1, h2⟩ := h.effect hL H hE hr
  refine ⟨?_, lv, fun j hj => (h.step _ _ _ hr).contours H hL hE h1 hj, h2⟩
  intro hn
  generalize D'.comps = cs at he
  cases he with
  | same _ _ h3 => exact h3
  | split _ h2 => rw [hn] at h2; cases h2
  | merge _ h2 => rw [hn] at h2; cases h2

/-! ### Example -/

/-- The run of the decomposition of `intIET` in `Examples.intCalls`: the perimeters of the two components at the end (see C50 for their sides)
are closed. -/
example {L : PPL} (hL : L.Lawful) : ∃ steps D lv, DReach L (SLengths.ops intArith) Examples.intIET Examples.intState D steps ∧ D.comps.length = 2 ∧
    ∀ i < 2, ∃ p, D.perimeter i = .ok p ∧ Contour Examples.intIET.top Examples.intIET.bottom lv p := by
  obtain ⟨steps, D, h1, -, h3⟩ := Examples.int_decomposition L
  have hl : D.comps.length = 2 := by simpa using congrArg List.length h3
  obtain ⟨lv, h⟩ := C60_perimeters Examples.hInt hL Examples.int_ok h1
  exact ⟨steps, D, lv, h1, hl, fun i hi => h i (by omega)⟩

/-- The connections and their equivalents in the first steps of this run, see C61. -/
example (L : PPL) : (Decomp.runFrom L (SLengths.ops intArith) Examples.intIET Examples.intState 20 (Examples.intCalls.take 4)).bind (fun r =>
    .ok (r.1.map (fun st => (st.connection, st.equivalent)))) = .ok [(none, none),
      (some ⟨⟨2, true⟩, ⟨1, false⟩⟩, some [.edge ⟨0, 2, false⟩, .edge ⟨0, 1, true⟩]),
      (some ⟨⟨3, true⟩, ⟨0, false⟩⟩, some [.edge ⟨0, 3, false⟩, .edge ⟨0, 0, true⟩]),
      (some ⟨⟨1, true⟩, ⟨2, false⟩⟩, some [.conn ⟨⟨1, false⟩, ⟨2, true⟩⟩, .edge ⟨0, 2, false⟩, .conn ⟨⟨3, true⟩, ⟨0, false⟩⟩,
        .conn ⟨⟨2, true⟩, ⟨1, false⟩⟩, .edge ⟨0, 2, true⟩])] := rfl

/-- The quarter of the plane at which we look. -/
def Ray.quarter : Ray → ℕ
  | .left _ => 0
  | .up _ => 1
  | .right _ => 2
  | .down _ => 3

theorem Ray.quarter_eq {top bottom : List Label} {x y : Ray} (h : x.glue top bottom = y.glue top bottom) : x.quarter = y.quarter := by
  have e : ∀ z : Ray, (z.glue top bottom).quarter = z.quarter := fun z => by cases z <;> rfl
  rw [← e, h, e]

theorem Turns.quarter {top bottom : List Label} : ∀ {k : ℕ} {x y : Ray}, Turns top bottom k x y → (x.quarter + k) % 4 = y.quarter
  | 0, x, y, h => by
    rw [Ray.quarter_eq h]
    cases y <;> rfl
  | k + 1, x, y, ⟨z, z', h1, h2, h3⟩ => by
    rw [← Turns.quarter h3, Ray.quarter_eq h1]
    cases h2 <;> simp only [Ray.quarter] <;> omega

/-- The sides of the first of these components in a different order: this is not a closed contour. -/
example : ¬ ∃ lv, Contour Examples.intIET.top Examples.intIET.bottom lv [.edge ⟨0, 2, false⟩, .conn ⟨⟨1, true⟩, ⟨2, false⟩⟩, .conn ⟨⟨2, true⟩, ⟨1, false⟩⟩, .edge ⟨0, 2, true⟩,
    .conn ⟨⟨1, false⟩, ⟨2, true⟩⟩, .conn ⟨⟨0, false⟩, ⟨3, true⟩⟩] := by
  rintro ⟨lv, h⟩
  unfold Contour at h
  rw [Cycle.chain_coe_cons, List.cons_append, List.isChain_cons_cons] at h
  obtain ⟨⟨k, h, hk, -⟩, -⟩ := h
  have hq := h.quarter
  obtain rfl : k = 1 := by
    simp only [Side.arrives, Side.leaves, Sep.ray, Ray.quarter] at hq
    simp at hq
    omega
  obtain ⟨z, z', h1, h2, h3⟩ := h
  simp only [Turns, Side.leaves, Sep.ray, if_true, Ray.glue] at h3
  cases h2 <;> simp only [reduceCtorEq, Ray.up.injEq] at h3
  subst h3
  have h1 : Ray.glue Examples.intIET.top Examples.intIET.bottom (.left 2) = Ray.glue Examples.intIET.top Examples.intIET.bottom (.left 1) := h1
  revert h1
  decide

end Verif
