import Verif.Props.Sharing
import Verif.Props.Unique

/-!
# C89: components can be decomposed on their own

One can take `iet()` of each component of a decomposition and decompose these IETs separately: in total this gives the same as decomposing further.
-/

namespace Verif

set_option linter.unusedSectionVars false

variable {σ T ε : Type} [CommRing T] [LinearOrder T] [IsStrictOrderedRing T] {O : LengthsOps σ T} {d d' : ℕ} {c : T →+ (Fin d → ℚ)} {c' : T →+ (Fin d' → ℚ)}

/-- `iet()` has been called on each component of `D`, and each of the IETs has been decomposed by the given steps. -/
def Separately (L : PPL) (O : LengthsOps σ T) (A : Arith T) (D : Decomp σ T) (Ds : List (Decomp (SLengths T) T × List DStep)) : Prop :=
  List.Forall₂ (fun i p => ∃ F f, D.iet O A i = .ok (F, f) ∧ DReach L (SLengths.ops A) F f p.1 p.2) (List.range D.comps.length) Ds

/-- What `iet()` returns. -/
theorem Decomp.iet_spec {A : Arith T} (hA : A.Lawful c') (H : LawfulLengths O c ε) {L : PPL} (hL : L.Lawful) {E : IET T} {s : σ} (hE : H.Ok E s)
    {D : Decomp σ T} {steps : List DStep} (h : DReach L O E s D steps) {i : ℕ} {x : Comp T} (hx : D.comps[i]? = some x) :
    ∃ F f, D.iet O A i = .ok (F, f) ∧ (SLengths.lawful hA).Ok F f ∧
      ((SLengths.lawful hA).abs F f).norm = (H.abs x.iet D.lengths.inner).norm := by
  have hc : D.comp i = .ok x := by simp only [Decomp.comp, hx]
  have hok := ((DReach.inv hL H (ι := AddMonoidHom.id T) strictMono_id hE h).good x (List.mem_of_getElem? hx)).ok
  have hv := hok.valid
  obtain ⟨f, f1, f2, f3, f4⟩ := (LWC.lawful H).forget_spec D.lengths hok.inv hok.nonneg
  have hlen : ∀ a ∈ x.iet.top, (SLengths.lawful hA).len f a = H.len D.lengths.inner a := by
    intro a ha
    show f.len a = _
    rw [SLengths.len, List.getD_eq_getElem?_getD, f4 a (hok.dom a ha)]
    rfl
  have hdom : ∀ a ∈ x.iet.top, (SLengths.lawful hA).dom f a := fun a ha => (List.getElem?_eq_some_iff.1 (f4 a (hok.dom a ha))).1
  have hagree : (H.abs x.iet D.lengths.inner).Agree ((SLengths.lawful hA).abs (IET.fresh x.iet.top x.iet.bottom) f) :=
    ⟨rfl, rfl, fun a ha => by first | exact hlen a ha | exact (hlen a ha).symm⟩
  have hok' : (SLengths.lawful hA).Ok (IET.fresh x.iet.top x.iet.bottom) f :=
    ⟨trivial, f2, hdom, hagree.valid hv, fun a ha => by
      have ha' : a < f.lengths.length := ha
      show 0 ≤ f.len a
      rw [SLengths.len, List.getD_eq_getElem _ _ ha']
      exact f3 _ (List.getElem_mem ha')⟩
  refine ⟨IET.fresh x.iet.top x.iet.bottom, f, ?_, hok', hagree.norm.symm⟩
  simp only [Decomp.iet, hc, bind, Except.bind, pure, Except.pure]
  rw [show O.forget D.lengths.inner = .ok f from f1]
  simp only
  rw [mk?_spec (SLengths.lawful hA) (s := f) (top := x.iet.top) (bottom := x.iet.bottom) trivial hok'.valid hdom]

section

variable {A : Arith T} (hA : A.Lawful c') (H : LawfulLengths O c ε) {L : PPL} (hL : L.Lawful) {E : IET T} {s : σ} (hE : H.Ok E s)
  {D : Decomp σ T} {steps : List DStep} (h : DReach L O E s D steps) {Ds : List (Decomp (SLengths T) T × List DStep)}

include hL hE h

/-- The IETs that have been decomposed are in order. -/
theorem Separately.starts (hs : Separately L O A D Ds) {p : Decomp (SLengths T) T × List DStep} (hp : p ∈ Ds) :
    ∃ F f, (SLengths.lawful hA).Ok F f ∧ DReach L (SLengths.ops A) F f p.1 p.2 := by
  have key : ∀ {l : List ℕ} {Ds : List (Decomp (SLengths T) T × List DStep)}, (∀ i ∈ l, i < D.comps.length) →
      List.Forall₂ (fun i p => ∃ F f, D.iet O A i = .ok (F, f) ∧ DReach L (SLengths.ops A) F f p.1 p.2) l Ds → ∀ p ∈ Ds,
      ∃ F f, (SLengths.lawful hA).Ok F f ∧ DReach L (SLengths.ops A) F f p.1 p.2 := by
    intro l Ds hl hs
    induction hs with
    | nil => intro p hp; cases hp
    | @cons i q l Ds hiq _ ih =>
      intro p hp
      rcases List.mem_cons.mp hp with rfl | hp
      · obtain ⟨F, f, g1, g2⟩ := hiq
        obtain ⟨F', f', g3, g4, -⟩ := Decomp.iet_spec hA H hL hE h (List.getElem?_eq_getElem (hl i (by simp)))
        rw [g1] at g3
        cases g3
        exact ⟨F, f, g4, g2⟩
      · exact ih (fun j hj => hl j (by simp [hj])) p hp
  exact key (fun i hi => List.mem_range.mp hi) hs p hp

/-- All the components together are obtained by elementary steps. -/
theorem Separately.rws (hs : Separately L O A D Ds) : Rws (D.parts H) ((Ds.map (fun p => p.1.parts (SLengths.lawful hA))).sum) := by
  have key : ∀ {l : List ℕ} {Ds : List (Decomp (SLengths T) T × List DStep)} {xs : List (Comp T)}, List.Forall₂ (fun i x => D.comps[i]? = some x) l xs →
      List.Forall₂ (fun i p => ∃ F f, D.iet O A i = .ok (F, f) ∧ DReach L (SLengths.ops A) F f p.1 p.2) l Ds →
      Rws ((xs.map (fun x => (H.abs x.iet D.lengths.inner).norm) : List (AIET T)) : Multiset (AIET T))
        ((Ds.map (fun p => p.1.parts (SLengths.lawful hA))).sum) := by
    intro l Ds xs hx hs
    induction hs generalizing xs with
    | nil => cases hx; exact .refl
    | @cons i q l Ds hiq _ ih =>
      cases hx with
      | @cons _ x _ xs hix hx =>
        obtain ⟨F, f, g1, g2⟩ := hiq
        obtain ⟨F', f', g3, g4, g5⟩ := Decomp.iet_spec hA H hL hE h hix
        rw [g1] at g3
        cases g3
        have r1 := g2.rws hL (SLengths.lawful hA) g4
        rw [g5] at r1
        have r2 := ih hx
        rw [List.map_cons, List.map_cons, List.sum_cons, ← Multiset.cons_coe, ← Multiset.singleton_add]
        have r3 := r1.add ((xs.map (fun x => (H.abs x.iet D.lengths.inner).norm) : List (AIET T)) : Multiset (AIET T))
        have r4 := r2.add (q.1.parts (SLengths.lawful hA))
        rw [add_comm _ (q.1.parts _), add_comm _ (q.1.parts _)] at r4
        exact r3.trans r4
  refine key ?_ hs
  rw [List.forall₂_iff_get]
  refine ⟨by simp, fun i h1 h2 => ?_⟩
  simp

end

theorem singles_sum (l : List (Multiset (AIET T))) : singles l.sum = (l.map singles).sum := by
  induction l with
  | nil => rfl
  | cons M l ih =>
    rw [List.sum_cons, List.map_cons, List.sum_cons, ← ih]
    unfold singles
    exact Multiset.filter_add _ _ _

/-- The cylinders of several decompositions. -/
def cylindersOf {A : Arith T} (hA : A.Lawful c') (Ds : List (Decomp (SLengths T) T × List DStep)) : List (Label × T) :=
  Ds.flatMap (fun p => p.1.cylinders (SLengths.lawful hA))

theorem cylindersOf_eq {A : Arith T} (hA : A.Lawful c') (Ds : List (Decomp (SLengths T) T × List DStep)) :
    (singles ((Ds.map (fun p => p.1.parts (SLengths.lawful hA))).sum)).map (fun A => (A.top.headD 0, A.len (A.top.headD 0))) =
      ((cylindersOf hA Ds : List (Label × T)) : Multiset (Label × T)) := by
  rw [singles_sum]
  unfold cylindersOf
  induction Ds with
  | nil => rfl
  | cons p Ds ih =>
    rw [List.map_cons, List.map_cons, List.sum_cons, Multiset.map_add, ih, Decomp.singles_parts, List.flatMap_cons, Multiset.coe_add]

section

variable {A : Arith T} (hA : A.Lawful c') (H : LawfulLengths O c ε) {L : PPL} (hL : L.Lawful) {E : IET T} {s : σ} (hE : H.Ok E s)
  {D D₂ : Decomp σ T} {steps steps₂ : List DStep} (h : DReach L O E s D steps) (h₂ : DReach L O E s D₂ steps₂)
  {Ds : List (Decomp (SLengths T) T × List DStep)} (hs : Separately L O A D Ds)

include hL hE h hs

theorem Separately.mem_sum {M : AIET T} (hM : M ∈ (Ds.map (fun p => p.1.parts (SLengths.lawful hA))).sum) :
    ∃ p ∈ Ds, M ∈ p.1.parts (SLengths.lawful hA) := by
  clear hs
  induction Ds with
  | nil => simp at hM
  | cons p Ds ih =>
    rw [List.map_cons, List.sum_cons, Multiset.mem_add] at hM
    rcases hM with hM | hM
    · exact ⟨p, by simp, hM⟩
    · obtain ⟨q, h1, h2⟩ := ih hM
      exact ⟨q, by simp [h1], h2⟩

include hA in
/-- How many intervals there are. -/
theorem Separately.intervals : (Ds.map (fun p => p.1.intervals + nonSeparatingCount p.2)).sum = D.intervals ∧
    (Ds.map (fun p => p.1.comps.length)).sum = (Ds.map (fun p => separatingCount p.2)).sum + D.comps.length := by
  have key : ∀ {l : List ℕ} {Ds : List (Decomp (SLengths T) T × List DStep)} {xs : List (Comp T)}, List.Forall₂ (fun i x => D.comps[i]? = some x) l xs →
      List.Forall₂ (fun i p => ∃ F f, D.iet O A i = .ok (F, f) ∧ DReach L (SLengths.ops A) F f p.1 p.2) l Ds →
      (Ds.map (fun p => p.1.intervals + nonSeparatingCount p.2)).sum = (xs.map (fun x => x.iet.top.length)).sum ∧
      (Ds.map (fun p => p.1.comps.length)).sum = (Ds.map (fun p => separatingCount p.2)).sum + xs.length := by
    intro l Ds xs hx hs
    induction hs generalizing xs with
    | nil => cases hx; exact ⟨rfl, rfl⟩
    | @cons i q l Ds hiq _ ih =>
      cases hx with
      | @cons _ x _ xs hix hx =>
        obtain ⟨F, f, g1, g2⟩ := hiq
        obtain ⟨F', f', g3, g4, g5⟩ := Decomp.iet_spec hA H hL hE h hix
        rw [g1] at g3
        cases g3
        obtain ⟨c1, c2⟩ := g2.counts (SLengths.lawful hA) hL g4
        have e : F.top.length = x.iet.top.length := congrArg (fun A : AIET T => A.top.length) g5
        obtain ⟨i1, i2⟩ := ih hx
        simp only [List.map_cons, List.sum_cons, List.length_cons]
        omega
  have := key (xs := D.comps) (by
    rw [List.forall₂_iff_get]
    exact ⟨by simp, fun i h1 h2 => by simp⟩) hs
  exact this

include h₂

/-- **C89** Take `iet()` of all components of a decomposition and decompose each of these IETs, by any steps with any limits.  The cylinders that show up in these
decompositions are cylinders that one finds when the original IET is decomposed, with the same labels and lengths. -/
theorem C89_cylinders (hD₂ : D₂.Settled H) : (cylindersOf hA Ds).Subperm (D₂.cylinders H) := by
  rw [← Multiset.coe_le, ← cylindersOf_eq, ← Decomp.singles_parts]
  exact Multiset.map_le_map (Rws.singles_le_of_settled ((h.rws hL H hE).trans (Separately.rws hA H hL hE h hs)) (h₂.rws hL H hE)
    (hD₂.parts (h₂.valid hL H hE)))

/-- **C89** If all these IETs are decomposed until the components have a single interval or no periodic points, all cylinders are found. -/
theorem C89_same (hD₂ : D₂.Settled H) (hDs : ∀ p ∈ Ds, p.1.Settled (SLengths.lawful hA)) : (cylindersOf hA Ds).Perm (D₂.cylinders H) := by
  refine (C89_cylinders hA H hL hE h h₂ hs hD₂).antisymm ?_
  rw [← Multiset.coe_le, ← cylindersOf_eq, ← Decomp.singles_parts]
  refine Multiset.map_le_map (Rws.singles_le_of_settled (h₂.rws hL H hE) ((h.rws hL H hE).trans (Separately.rws hA H hL hE h hs)) ?_)
  intro M hM
  obtain ⟨p, hp, hM⟩ := Separately.mem_sum hA H hL hE h hs hM
  obtain ⟨F, f, g1, g2⟩ := Separately.starts hA H hL hE h hs hp
  exact (hDs p hp).parts (g2.valid hL _ g1) M hM

/-- **C89** If all these IETs are decomposed completely, then the numbers of connections that have been reported, before and after `iet()`, are those that
a complete decomposition of the original IET reports. -/
theorem C89_counts (hD₂ : D₂.Complete H) (hDs : ∀ p ∈ Ds, p.1.Complete (SLengths.lawful hA)) :
    separatingCount steps + (Ds.map (fun p => separatingCount p.2)).sum = separatingCount steps₂ ∧
    nonSeparatingCount steps + (Ds.map (fun p => nonSeparatingCount p.2)).sum = nonSeparatingCount steps₂ ∧
    (Ds.map (fun p => p.1.comps.length)).sum = D₂.comps.length := by
  have hfree : AllFree (Ds.map (fun p => p.1.parts (SLengths.lawful hA))).sum := by
    intro M hM
    obtain ⟨p, hp, hM⟩ := Separately.mem_sum hA H hL hE h hs hM
    obtain ⟨F, f, g1, g2⟩ := Separately.starts hA H hL hE h hs hp
    exact (hDs p hp).allFree (g2.valid hL _ g1) M hM
  have hk := Rws.kin ((h.rws hL H hE).trans (Separately.rws hA H hL hE h hs)) (h₂.rws hL H hE) hfree (hD₂.allFree (h₂.valid hL H hE))
  have hcard : (Ds.map (fun p => p.1.comps.length)).sum = D₂.comps.length := by
    have := Multiset.card_eq_card_of_rel hk
    have e1 : Multiset.card (Ds.map (fun p => p.1.parts (SLengths.lawful hA))).sum = (Ds.map (fun p => p.1.comps.length)).sum := by
      clear hs hDs hfree hk this
      induction Ds with
      | nil => rfl
      | cons p Ds ih =>
        rw [List.map_cons, List.sum_cons, Multiset.card_add, ih, List.map_cons, List.sum_cons]
        simp [Decomp.parts]
    rw [e1] at this
    simpa [Decomp.parts] using this
  have hint : (Ds.map (fun p => p.1.intervals)).sum = D₂.intervals := by
    have e0 : ∀ {M M' : Multiset (AIET T)}, Multiset.Rel Kin M M' → (M.map (fun A => A.top.length)).sum = (M'.map (fun A => A.top.length)).sum := by
      intro M M' h
      induction h with
      | zero => rfl
      | cons h _ ih => rw [Multiset.map_cons, Multiset.map_cons, Multiset.sum_cons, Multiset.sum_cons, ih, h.perm.length_eq]
    have e2 : ∀ {σ' ε' : Type} {O' : LengthsOps σ' T} {e : ℕ} {c₁ : T →+ (Fin e → ℚ)} (H' : LawfulLengths O' c₁ ε') (D' : Decomp σ' T),
        ((D'.parts H').map (fun A => A.top.length)).sum = D'.intervals := by
      intro σ' ε' O' e c₁ H' D'
      simp [Decomp.parts, Decomp.intervals, AIET.norm, LawfulLengths.abs, Function.comp_def]
    have := e0 hk
    rw [e2 H D₂] at this
    rw [← this]
    clear hs hDs hfree hk this hcard
    induction Ds with
    | nil => rfl
    | cons p Ds ih => rw [List.map_cons, List.map_cons, List.sum_cons, List.sum_cons, Multiset.map_add, Multiset.sum_add, ih, e2]
  obtain ⟨i1, i2⟩ := Separately.intervals hA H hL hE h hs
  obtain ⟨c1, c2⟩ := h.counts H hL hE
  obtain ⟨c3, c4⟩ := h₂.counts H hL hE
  have : (Ds.map (fun p => p.1.intervals + nonSeparatingCount p.2)).sum = (Ds.map (fun p => p.1.intervals)).sum + (Ds.map (fun p => nonSeparatingCount p.2)).sum :=
    List.sum_map_add
  exact ⟨by omega, by omega, hcard⟩

end

/-- **C89** It is always possible to decompose the IETs of the components completely. -/
theorem C89_attainable [Archimedean T] {A : Arith T} (hA : A.Lawful c') (H : LawfulLengths O c ε) {L : PPL} (hL : L.Lawful) {E : IET T} {s : σ} (hE : H.Ok E s)
    {D : Decomp σ T} {steps : List DStep} (h : DReach L O E s D steps) :
    ∃ Ds, Separately L O A D Ds ∧ ∀ p ∈ Ds, p.1.Complete (SLengths.lawful hA) := by
  have key : ∀ l : List ℕ, (∀ i ∈ l, i < D.comps.length) → ∃ Ds : List (Decomp (SLengths T) T × List DStep),
      List.Forall₂ (fun i p => ∃ F f, D.iet O A i = .ok (F, f) ∧ DReach L (SLengths.ops A) F f p.1 p.2) l Ds ∧
      ∀ p ∈ Ds, p.1.Complete (SLengths.lawful hA) := by
    intro l
    induction l with
    | nil => exact fun _ => ⟨[], .nil, by simp⟩
    | cons i l ih =>
      intro hl
      obtain ⟨Ds, g1, g2⟩ := ih (fun j hj => hl j (by simp [hj]))
      obtain ⟨F, f, g3, g4, -⟩ := Decomp.iet_spec hA H hL hE h (List.getElem?_eq_getElem (hl i (by simp)))
      obtain ⟨D', k1, -⟩ := Decomp.make_spec (SLengths.lawful hA) (ι := AddMonoidHom.id T) (fun _ _ h => h) g4
      obtain ⟨D'', k2, k3⟩ := C74_attainable (SLengths.lawful hA) hL g4 (.init (L := L) k1)
      obtain ⟨st, k4⟩ := k2.reach (.init (L := L) k1)
      exact ⟨(D'', st) :: Ds, .cons ⟨F, f, g3, k4⟩ g1, by simpa using ⟨k3, fun a b hab => g2 (a, b) hab⟩⟩
  exact key _ (fun i hi => List.mem_range.mp hi)

namespace Examples

/-- The second way to decompose the five intervals leaves a component with two intervals.  Decomposing the components on their own, one gets the three cylinders that are
found by the first way to decompose the five intervals. -/
example : ∃ D D₂ steps steps₂ Ds, DReach PPL.ideal (SLengths.ops intArith) twoIET twoState D steps ∧
    DReach PPL.ideal (SLengths.ops intArith) twoIET twoState D₂ steps₂ ∧ D.comps.map (fun x : Comp ℤ => x.iet.top) = [[1], [3, 4]] ∧
    D.cylinders hInt = [(1, 2)] ∧ Separately PPL.ideal (SLengths.ops intArith) intArith D Ds ∧
    (cylindersOf intArith_lawful Ds).Perm [(1, 2), (3, 3), (4, 3)] ∧
    nonSeparatingCount steps + (Ds.map (fun p => nonSeparatingCount p.2)).sum = nonSeparatingCount steps₂ := by
  obtain ⟨st₂, D₂, h1, h2, h3, h4⟩ := of_cylindersAfter two_run
  obtain ⟨st₁, D₁, g1, g2, g3, g4⟩ := of_cylindersAfter two_run'
  obtain ⟨Ds, k1, k2⟩ := C89_attainable intArith_lawful hInt PPL.ideal_lawful two_ok g1
  have hD₂ : D₂.Complete hInt := by
    rintro x hx ⟨t, ht, -⟩
    have : x.iet.top ∈ D₂.comps.map (fun x : Comp ℤ => x.iet.top) := List.mem_map_of_mem hx
    rw [h3] at this
    simp only [List.mem_cons, List.not_mem_nil, or_false] at this
    simp only [LawfulLengths.abs] at ht
    rcases this with e | e | e <;> simp [e] at ht
  refine ⟨D₁, D₂, st₁, st₂, Ds, g1, h1, g3, g4, k1, ?_, (C89_counts intArith_lawful hInt PPL.ideal_lawful two_ok g1 h1 k1 hD₂ k2).2.1⟩
  rw [← h4]
  refine C89_same intArith_lawful hInt PPL.ideal_lawful two_ok g1 h1 k1 (hD₂.settled (h1.valid PPL.ideal_lawful hInt two_ok)) (fun p hp => ?_)
  obtain ⟨F, f, q1, q2⟩ := Separately.starts intArith_lawful hInt PPL.ideal_lawful two_ok g1 k1 hp
  exact (k2 p hp).settled (q2.valid PPL.ideal_lawful _ q1)

end Examples

end Verif
