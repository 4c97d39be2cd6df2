import Verif.Proofs.PieceSaddle
import Verif.Props.Nested
import Verif.Props.Saddles
import Verif.Props.Separatrix

/-!
# C90: the saddle connections of the components

The saddle connections of a component are the saddle connections of the original IET between the separatrices at its half edges.
-/

namespace Verif

set_option linter.unusedSectionVars false

variable {σ T ε : Type} [CommRing T] [LinearOrder T] [IsStrictOrderedRing T] {O : LengthsOps σ T} {d d' : ℕ} {c : T →+ (Fin d → ℚ)} {c' : T →+ (Fin d' → ℚ)}

theorem mem_dropLast_iff {l : List Label} (hl : l.Nodup) {a : Label} (ha : a ∈ l) : a ∈ l.dropLast ↔ some a ≠ l.getLast? := by
  obtain ⟨l', z, rfl⟩ : ∃ l' z, l = l' ++ [z] := ⟨l.dropLast, l.getLast (List.ne_nil_of_mem ha), (List.dropLast_append_getLast _).symm⟩
  rw [List.dropLast_concat, List.getLast?_concat]
  rw [List.nodup_append] at hl
  constructor
  · rintro h e
    cases e
    exact hl.2.2 a h a (by simp) rfl
  · intro h
    rcases List.mem_append.mp ha with h' | h'
    · exact h'
    · exact absurd (by rw [List.mem_singleton.mp h']) h

theorem AIET.Agree.saddle {A B : AIET T} (h : A.Agree B) (hA : A.Valid) {b t : Label} : A.Saddle b t → B.Saddle b t := by
  obtain ⟨top, bottom, len⟩ := A
  obtain ⟨top', bottom', len'⟩ := B
  obtain ⟨rfl, rfl, hl⟩ := h
  simp only at hl
  have hl' : ∀ a ∈ bottom, len a = len' a := fun a ha => hl a (hA.perm.mem_iff.mp ha)
  rintro ⟨hb, ht, hr⟩
  refine ⟨hb, ht, ?_⟩
  simp only [AIET.rightBottom, AIET.rightTop] at hr ⊢
  rw [off_congr hl', off_congr hl, hl' b (List.mem_of_mem_dropLast hb), hl t (List.mem_of_mem_dropLast ht)] at hr
  refine Relation.ReflTransGen.mono ?_ _ _ hr
  rintro x z ⟨⟨a, ha, h1, h2⟩, ⟨a', ha', h3, h4, h5⟩⟩
  simp only at ha ha' h1 h2 h3 h4 h5
  rw [off_congr hl] at h1 h2 h3 h4 h5
  rw [off_congr hl'] at h5
  rw [hl a ha] at h2
  rw [hl a' ha'] at h4
  exact ⟨⟨a, ha, h1, h2⟩, ⟨a', ha', h3, h4, h5⟩⟩

theorem AIET.Valid.saddle_norm {A : AIET T} (hA : A.Valid) {b t : Label} : A.norm.Saddle b t ↔ A.Saddle b t :=
  ⟨A.agree_norm.symm.saddle (A.agree_norm.valid hA), A.agree_norm.saddle hA⟩

theorem mem_of_after {l : Label} {r : Option Label} : ∀ {ls : List Label}, Decomp.after l ls = .ok r → l ∈ ls
  | [], h => by cases h
  | a :: ls, h => by
    unfold Decomp.after at h
    split at h
    · next e => simp [e]
    · exact List.mem_cons_of_mem _ (mem_of_after h)

theorem mem_of_separatrix {D : Decomp σ T} {i : ℕ} {x : Comp T} (hx : D.comps[i]? = some x) {l : Label} {isTop : Bool} {u : Option Sep}
    (h : D.separatrix ⟨i, l, isTop⟩ = .ok u) : l ∈ (if isTop then x.iet.top else x.iet.bottom) := by
  simp only [Decomp.separatrix, Decomp.next, Decomp.comp, hx, bind, Except.bind, pure, Except.pure] at h
  cases ha : Decomp.after l (if isTop then x.iet.top else x.iet.bottom) with
  | ok r => exact mem_of_after ha
  | error e => simp [ha] at h

section

variable (H : LawfulLengths O c ε) {L : PPL} (hL : L.Lawful) {E : IET T} {s : σ} (hE : H.Ok E s)
  {D : Decomp σ T} {steps : List DStep} (h : DReach L O E s D steps)

include hL hE h

/-- What `separatrix()` returns at the half edges of a component. -/
theorem DReach.separatrix_at {i : ℕ} {x : Comp T} (hx : D.comps[i]? = some x) {l : Label} {isTop : Bool}
    {u : Sep} : D.separatrix ⟨i, l, isTop⟩ = .ok (some u) ↔
      l ∈ (if isTop then x.iet.top else x.iet.bottom).dropLast ∧ u = (if isTop then ⟨l, false⟩ else ⟨D.lengths.conns.endOf l, true⟩) := by
  suffices key : l ∈ (if isTop then x.iet.top else x.iet.bottom) → (D.separatrix ⟨i, l, isTop⟩ = .ok (some u) ↔
      l ∈ (if isTop then x.iet.top else x.iet.bottom).dropLast ∧ u = (if isTop then ⟨l, false⟩ else ⟨D.lengths.conns.endOf l, true⟩)) from
    ⟨fun h' => (key (mem_of_separatrix hx h')).mp h', fun h' => (key (List.mem_of_mem_dropLast h'.1)).mpr h'⟩
  intro hl
  obtain ⟨v, hs⟩ := (C35_partition H hL hE h).1 x (List.mem_of_getElem? hx)
  have hg : (⟨i, l, isTop⟩ : HalfEdge) ∈ D.halfEdges := by
    simp only [Decomp.halfEdges, List.mem_flatMap]
    refine ⟨(x, i), List.mem_zipIdx_iff_getElem?.2 hx, ?_⟩
    simp only [Comp.topContour, Comp.bottomContour, hs, Bool.false_eq_true, if_false]
    cases isTop
    · exact List.mem_append_right _ (List.mem_map_of_mem (by simpa using hl))
    · exact List.mem_append_left _ (List.mem_map_of_mem (by simpa using hl))
  rw [(h.separatrix H hL hE hg).2, sepOf_eq (g := ⟨i, l, isTop⟩) hx]
  have hn : (if isTop then x.iet.top else x.iet.bottom).Nodup := by
    split
    · exact v.nodup
    · exact v.perm.nodup_iff.2 v.nodup
  rw [mem_dropLast_iff hn hl]
  by_cases e : some l = (if isTop then x.iet.top else x.iet.bottom).getLast?
  · simp [e]
  · rw [if_neg e]
    simp only [Except.ok.injEq, Option.some.injEq, ne_eq, e, not_false_eq_true, true_and]
    exact eq_comm

/-- **C90** There is a saddle connection in a component from the right of its bottom interval `b` to the right of its top interval `t`, if and only if there is a
saddle connection in the original IET from the separatrix at the bottom half edge `b` to the separatrix at the top half edge `t`. -/
theorem C90_component {i : ℕ} {x : Comp T} (hx : D.comps[i]? = some x) {b t : Label} {u v : Sep} (hu : D.separatrix ⟨i, b, false⟩ = .ok (some u))
    (hv : D.separatrix ⟨i, t, true⟩ = .ok (some v)) :
    u.parallel = true ∧ v.parallel = false ∧ ((H.abs x.iet D.lengths.inner).Saddle b t ↔ (H.abs E s).Saddle u.label v.label) := by
  obtain ⟨b1, rfl⟩ := (h.separatrix_at H hL hE hx (isTop := false)).mp hu
  obtain ⟨t1, rfl⟩ := (h.separatrix_at H hL hE hx (isTop := true)).mp hv
  refine ⟨rfl, rfl, ?_⟩
  obtain ⟨oc, h1, h2⟩ := (h.inv hL H (ι := AddMonoidHom.id T) (fun _ _ h => h) hE).track
  have hx' : x ∈ oc.map Prod.snd := by rw [h1]; exact List.mem_of_getElem? hx
  obtain ⟨q, hq, rfl⟩ := List.mem_map.mp hx'
  exact h2.piece_saddle (p := (q.1, (H.abs q.2.iet D.lengths.inner).map (AddMonoidHom.id T))) (List.mem_map.mpr ⟨q, hq, rfl⟩) b1 t1

/-- **C90** The saddle connections of the original IET are those that have been reported and those of the components. -/
theorem C90_remaining {a t : Label} : (H.abs E s).Saddle a t ↔
    (∃ st ∈ steps, st.connection = some ⟨⟨a, true⟩, ⟨t, false⟩⟩) ∨
    ∃ i x b, D.comps[i]? = some x ∧ D.separatrix ⟨i, b, false⟩ = .ok (some ⟨a, true⟩) ∧ D.separatrix ⟨i, t, true⟩ = .ok (some ⟨t, false⟩) ∧
      (H.abs x.iet D.lengths.inner).Saddle b t := by
  obtain ⟨oc, h1, h2⟩ := (h.inv hL H (ι := AddMonoidHom.id T) (fun _ _ h => h) hE).track
  refine h2.saddle_iff.trans (or_congr List.mem_filterMap ⟨?_, ?_⟩)
  · rintro ⟨p, hp, b, e, hs⟩
    obtain ⟨q, hq, rfl⟩ := List.mem_map.mp hp
    obtain ⟨i, hi⟩ := List.getElem?_of_mem (show q.2 ∈ D.comps by rw [← h1]; exact List.mem_map_of_mem hq)
    have hb := hs.1
    have ht := hs.2.1
    refine ⟨i, q.2, b, hi, (h.separatrix_at H hL hE hi (isTop := false)).mpr ⟨hb, ?_⟩,
      (h.separatrix_at H hL hE hi (isTop := true)).mpr ⟨ht, rfl⟩, hs⟩
    simp only [Bool.false_eq_true, if_false, ← e]
  · rintro ⟨i, x, b, hi, hu, -, hs⟩
    have hx' : x ∈ oc.map Prod.snd := by rw [h1]; exact List.mem_of_getElem? hi
    obtain ⟨q, hq, rfl⟩ := List.mem_map.mp hx'
    obtain ⟨-, e⟩ := (h.separatrix_at H hL hE hi (isTop := false)).mp hu
    simp only [Bool.false_eq_true, if_false, Sep.mk.injEq, and_true] at e
    exact ⟨(q.1, (H.abs q.2.iet D.lengths.inner).map (AddMonoidHom.id T)), List.mem_map.mpr ⟨q, hq, rfl⟩, b, e.symm, hs⟩

/-- **C90** No saddle connection of a component has been reported. -/
theorem C90_new {i : ℕ} {x : Comp T} (hx : D.comps[i]? = some x) {b t : Label} (hs : (H.abs x.iet D.lengths.inner).Saddle b t) {st : DStep} (hst : st ∈ steps)
    {conn : Conn} (hconn : st.connection = some conn) : conn.target.label ≠ t ∧ D.separatrix ⟨i, b, false⟩ ≠ .ok (some conn.source) := by
  obtain ⟨oc, h1, h2⟩ := (h.inv hL H (ι := AddMonoidHom.id T) (fun _ _ h => h) hE).track
  have hx' : x ∈ oc.map Prod.snd := by rw [h1]; exact List.mem_of_getElem? hx
  obtain ⟨q, hq, rfl⟩ := List.mem_map.mp hx'
  have hp : (q.1, (H.abs q.2.iet D.lengths.inner).map (AddMonoidHom.id T)) ∈ pcs H (AddMonoidHom.id T) D.lengths.inner oc := List.mem_map.mpr ⟨q, hq, rfl⟩
  have hR : conn ∈ reported steps := List.mem_filterMap.mpr ⟨st, hst, hconn⟩
  refine ⟨h2.saddle_disjoint hp hs.2.1 hR, fun e => ?_⟩
  obtain ⟨b1, e⟩ := (h.separatrix_at H hL hE hx (isTop := false)).mp e
  have hn := h2.sources.nodup_iff.mpr (h2.base.inv.nodup.sublist (List.dropLast_sublist _))
  refine (List.nodup_append.mp hn).2.2 (D.lengths.conns.endOf b) (List.mem_flatMap.mpr ⟨_, hp, List.mem_map_of_mem b1⟩) _ (List.mem_map.mpr ⟨conn, hR, rfl⟩) ?_
  rw [e]
  rfl

/-- **C90** When the IET returned by `iet()` of a component is decomposed completely, then the connections that are reported are exactly the saddle connections of
the original IET between the separatrices at the half edges of the component. -/
theorem C90_iet {A : Arith T} (hA : A.Lawful c') {i : ℕ} {F : IET T} {f : SLengths T} (hF : D.iet O A i = .ok (F, f)) {D' : Decomp (SLengths T) T}
    {steps' : List DStep} (h' : DReach L (SLengths.ops A) F f D' steps') (hD' : D'.Complete (SLengths.lawful hA)) {b t : Label} {u v : Sep}
    (hu : D.separatrix ⟨i, b, false⟩ = .ok (some u)) (hv : D.separatrix ⟨i, t, true⟩ = .ok (some v)) :
    (∃ st ∈ steps', st.connection = some ⟨⟨b, true⟩, ⟨t, false⟩⟩) ↔ (H.abs E s).Saddle u.label v.label := by
  have hi : ∃ x, D.comps[i]? = some x := by
    cases hx : D.comps[i]? with
    | some x => exact ⟨x, rfl⟩
    | none =>
      simp only [Decomp.iet, Decomp.comp, hx, bind, Except.bind] at hF
      cases hF
  obtain ⟨x, hx⟩ := hi
  obtain ⟨F', f', g1, g2, g3⟩ := Decomp.iet_spec hA H hL hE h hx
  rw [hF] at g1
  cases g1
  rw [← C78_complete (SLengths.lawful hA) hL g2 h' hD' b t, ← (C90_component H hL hE h hx hu hv).2.2]
  rw [← g2.valid.saddle_norm, g3, AIET.Valid.saddle_norm]
  exact ((C35_partition H hL hE h).1 x (List.mem_of_getElem? hx)).1

/-- **C90** When the IETs returned by `iet()` of all components are decomposed completely, then a complete decomposition of the original IET reports the connections
that have been reported before `iet()` has been called, and the connections that are reported for the IETs of the components, with the source replaced by the
separatrix at the corresponding half edge. -/
theorem C90_total {A : Arith T} (hA : A.Lawful c') {Ds : List (Decomp (SLengths T) T × List DStep)} (hs : Separately L O A D Ds)
    (hDs : ∀ p ∈ Ds, p.1.Complete (SLengths.lawful hA)) {D₂ : Decomp σ T} {steps₂ : List DStep} (h₂ : DReach L O E s D₂ steps₂) (hD₂ : D₂.Complete H)
    {a t : Label} :
    (∃ st ∈ steps₂, st.connection = some ⟨⟨a, true⟩, ⟨t, false⟩⟩) ↔
      (∃ st ∈ steps, st.connection = some ⟨⟨a, true⟩, ⟨t, false⟩⟩) ∨
      ∃ i p b, Ds[i]? = some p ∧ (∃ st ∈ p.2, st.connection = some ⟨⟨b, true⟩, ⟨t, false⟩⟩) ∧ D.separatrix ⟨i, b, false⟩ = .ok (some ⟨a, true⟩) := by
  have hlen : Ds.length = D.comps.length := by rw [← List.Forall₂.length_eq hs, List.length_range]
  have at' : ∀ {i : ℕ} {p : Decomp (SLengths T) T × List DStep}, Ds[i]? = some p → ∃ F f, D.iet O A i = .ok (F, f) ∧ DReach L (SLengths.ops A) F f p.1 p.2 := by
    intro i p hp
    obtain ⟨hi, e⟩ := List.getElem?_eq_some_iff.1 hp
    have := (List.forall₂_iff_get.mp hs).2 i (by rw [List.length_range]; omega) hi
    simp only [List.get_eq_getElem, List.getElem_range, e] at this
    exact this
  rw [← C78_complete H hL hE h₂ hD₂ a t, C90_remaining H hL hE h]
  refine or_congr_right ⟨?_, ?_⟩
  · rintro ⟨i, x, b, hi, hu, hv, hsad⟩
    obtain ⟨hi', -⟩ := List.getElem?_eq_some_iff.1 hi
    obtain ⟨p, hp⟩ : ∃ p, Ds[i]? = some p := ⟨_, List.getElem?_eq_getElem (by omega)⟩
    obtain ⟨F, f, k1, k2⟩ := at' hp
    obtain ⟨F', f', g1, g2, g3⟩ := Decomp.iet_spec hA H hL hE h hi
    rw [k1] at g1
    cases g1
    refine ⟨i, p, b, hp, (C78_complete (SLengths.lawful hA) hL g2 k2 (hDs p (List.mem_of_getElem? hp)) b t).mp ?_, hu⟩
    rw [← g2.valid.saddle_norm, g3, AIET.Valid.saddle_norm]
    · exact hsad
    · exact ((C35_partition H hL hE h).1 x (List.mem_of_getElem? hi)).1
  · rintro ⟨i, p, b, hp, hc, hu⟩
    obtain ⟨hi', -⟩ := List.getElem?_eq_some_iff.1 hp
    obtain ⟨x, hi⟩ : ∃ x, D.comps[i]? = some x := ⟨_, List.getElem?_eq_getElem (by omega)⟩
    obtain ⟨F, f, k1, k2⟩ := at' hp
    obtain ⟨F', f', g1, g2, g3⟩ := Decomp.iet_spec hA H hL hE h hi
    rw [k1] at g1
    cases g1
    have hsad := (C78_complete (SLengths.lawful hA) hL g2 k2 (hDs p (List.mem_of_getElem? hp)) b t).mpr hc
    rw [← g2.valid.saddle_norm, g3, AIET.Valid.saddle_norm] at hsad
    · exact ⟨i, x, b, hi, hu, (h.separatrix_at H hL hE hi (isTop := true)).mpr ⟨hsad.2.1, rfl⟩, hsad⟩
    · exact ((C35_partition H hL hE h).1 x (List.mem_of_getElem? hi)).1

end

namespace Examples

/-- Three intervals of which the first ones at the top and at the bottom have the same length. -/
def threeIET : IET ℤ := .fresh [0, 1, 2] [2, 0, 1]
/-- Their lengths. -/
def threeState : SLengths ℤ := ⟨[], [3, 1, 3]⟩

theorem three_ok : hInt.Ok threeIET threeState := sample_ok _ _ _ _ (by decide)

/-- What is observed when some steps are performed: the connections, the labels of the components, the separatrix at a half edge, and the connections that are
reported when `iet()` of the first component is decomposed. -/
noncomputable def observe (calls calls' : List (ℤ × ℕ)) (g : HalfEdge) :
    Option (List (Option Conn) × List (List Label × List Label) × Option Sep × List (Option Conn) × List (List Label)) :=
  match Decomp.runFrom PPL.ideal (SLengths.ops intArith) threeIET threeState 20 calls with
  | .ok (r : List DStep × Decomp (SLengths ℤ) ℤ) =>
    match r.2.separatrix g, r.2.iet (SLengths.ops intArith) intArith 0 with
    | .ok u, .ok (F, f) =>
      match Decomp.runFrom PPL.ideal (SLengths.ops intArith) F f 20 calls' with
      | .ok (r' : List DStep × Decomp (SLengths ℤ) ℤ) =>
        some (r.1.map DStep.connection, r.2.comps.map (fun x : Comp ℤ => (x.iet.top, x.iet.bottom)), u, r'.1.map DStep.connection,
          r'.2.comps.map (fun x : Comp ℤ => x.iet.top))
      | .error _ => none
    | _, _ => none
  | .error _ => none

theorem three_run : observe [(-1, 0)] [(-1, 0)] ⟨0, 2, false⟩ =
    some ([some ⟨⟨2, true⟩, ⟨0, false⟩⟩], [([1, 2], [2, 1])], some ⟨0, true⟩, [some ⟨⟨2, true⟩, ⟨1, false⟩⟩], [[2]]) := rfl

theorem complete_of_single {D : Decomp (SLengths ℤ) ℤ} (h : D.comps.map (fun x : Comp ℤ => x.iet.top) = [[2]]) : D.Complete hInt := by
  rintro x hx ⟨t, ht, -⟩
  have : x.iet.top ∈ D.comps.map (fun x : Comp ℤ => x.iet.top) := List.mem_map_of_mem hx
  rw [h, List.mem_singleton] at this
  simp only [LawfulLengths.abs, this] at ht
  simp at ht

theorem of_observe {calls calls' : List (ℤ × ℕ)} {g : HalfEdge} {cs cs' : List (Option Conn)} {xs : List (List Label × List Label)} {u : Option Sep}
    {ls : List (List Label)} (h : observe calls calls' g = some (cs, xs, u, cs', ls)) :
    ∃ steps D F f steps' D', DReach PPL.ideal (SLengths.ops intArith) threeIET threeState D steps ∧ D.separatrix g = .ok u ∧
      D.iet (SLengths.ops intArith) intArith 0 = .ok (F, f) ∧ DReach PPL.ideal (SLengths.ops intArith) F f D' steps' ∧ steps.map DStep.connection = cs ∧
      D.comps.map (fun x : Comp ℤ => (x.iet.top, x.iet.bottom)) = xs ∧ steps'.map DStep.connection = cs' ∧
      D'.comps.map (fun x : Comp ℤ => x.iet.top) = ls := by
  unfold observe at h
  split at h
  · rename_i r hr
    split at h
    · rename_i u' F f hu hF
      split at h
      · rename_i r' hr'
        cases h
        exact ⟨r.1, r.2, F, f, r'.1, r'.2, .runFrom hr, hu, hF, .runFrom hr', rfl, rfl, rfl, rfl⟩
      · cases h
    · cases h
  · cases h

end Examples

open Examples in
/-- **C90** The labels of the sources have to be replaced: after a connection has been found, the IET returned by `iet()` is decomposed and the connection from 2 to 1
is reported.  There is no such connection in the original IET, this is the connection from 0 to 1. -/
theorem C90_relabelled : ∃ steps D F f steps' D', DReach PPL.ideal (SLengths.ops intArith) threeIET threeState D steps ∧
    D.iet (SLengths.ops intArith) intArith 0 = .ok (F, f) ∧ DReach PPL.ideal (SLengths.ops intArith) F f D' steps' ∧
    (∃ st ∈ steps', st.connection = some ⟨⟨2, true⟩, ⟨1, false⟩⟩) ∧ D.separatrix ⟨0, 2, false⟩ = .ok (some ⟨0, true⟩) ∧
    ¬ (hInt.abs threeIET threeState).Saddle 2 1 ∧ (hInt.abs threeIET threeState).Saddle 0 1 := by
  obtain ⟨steps, D, F, f, steps', D', h1, h2, h3, h4, h5, h6, h7, h8⟩ := of_observe three_run
  have hc : ∃ st ∈ steps', st.connection = some ⟨⟨2, true⟩, ⟨1, false⟩⟩ := by
    have : some ⟨⟨2, true⟩, ⟨1, false⟩⟩ ∈ steps'.map DStep.connection := by rw [h7]; simp
    exact List.mem_map.mp this
  have hx : ∃ x, D.comps[0]? = some x ∧ x.iet.top = [1, 2] := by
    cases hx : D.comps with
    | nil => rw [hx] at h6; cases h6
    | cons x l =>
      rw [hx, List.map_cons] at h6
      exact ⟨x, rfl, (Prod.mk.inj (List.cons.inj h6).1).1⟩
  obtain ⟨x, hx, hx'⟩ := hx
  have ht : D.separatrix ⟨0, 1, true⟩ = .ok (some ⟨1, false⟩) :=
    (h1.separatrix_at hInt PPL.ideal_lawful three_ok hx (isTop := true)).mpr ⟨by simp [hx'], rfl⟩
  have hs := (C90_iet hInt PPL.ideal_lawful three_ok h1 intArith_lawful h3 h4 (complete_of_single h8) h2 ht).mp hc
  refine ⟨steps, D, F, f, steps', D', h1, h3, h4, hc, h2, fun h => ?_, hs⟩
  have := three_ok.valid.saddle_source h hs
  cases this

open Examples in
/-- A decomposition of the same IET after one connection, the IET of its component decomposed completely, and a complete decomposition.  The latter has reported two
connections. -/
example : ∃ D steps Ds D₂ steps₂, DReach PPL.ideal (SLengths.ops intArith) threeIET threeState D steps ∧
    steps.map DStep.connection = [some ⟨⟨2, true⟩, ⟨0, false⟩⟩] ∧ Separately PPL.ideal (SLengths.ops intArith) intArith D Ds ∧
    (∀ p ∈ Ds, p.1.Complete (SLengths.lawful intArith_lawful)) ∧ DReach PPL.ideal (SLengths.ops intArith) threeIET threeState D₂ steps₂ ∧ D₂.Complete hInt ∧
    (∃ st ∈ steps₂, st.connection = some ⟨⟨0, true⟩, ⟨1, false⟩⟩) := by
  obtain ⟨steps, D, F, f, steps', D', h1, h2, h3, h4, h5, h6, h7, h8⟩ := of_observe three_run
  obtain ⟨Ds, k1, k2⟩ := C89_attainable intArith_lawful hInt PPL.ideal_lawful three_ok h1
  obtain ⟨-, -, -, -, -, -, -, -, -, -, -, -, hs⟩ := C90_relabelled
  obtain ⟨D₀, k3, -⟩ := Decomp.make_spec hInt (ι := AddMonoidHom.id ℤ) (fun _ _ h => h) three_ok
  obtain ⟨D₂, k4, k5⟩ := C74_attainable hInt PPL.ideal_lawful three_ok (.init (L := PPL.ideal) k3)
  obtain ⟨steps₂, k6⟩ := k4.reach (.init (L := PPL.ideal) k3)
  exact ⟨D, steps, Ds, D₂, steps₂, h1, h5, k1, k2, k6, k5, (C78_complete hInt PPL.ideal_lawful three_ok k6 k5 0 1).mp hs⟩

end Verif
