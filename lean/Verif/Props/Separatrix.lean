import Verif.Props.HalfEdges

/-!
# Separatrices at half edges
-/

namespace Verif

set_option linter.unusedSectionVars false

variable {σ T ε : Type} [CommRing T] [LinearOrder T] [IsStrictOrderedRing T] {O : LengthsOps σ T} {d : ℕ} {c : T →+ (Fin d → ℚ)}
  {P : Type} [CommRing P] [LinearOrder P] [IsStrictOrderedRing P]

/-- The separatrix at a half edge of a component. -/
def Decomp.sepOf (D : Decomp σ T) (g : HalfEdge) : Option Sep :=
  match D.comps[g.comp]? with
  | none => none
  | some x =>
    if some g.label = (if g.top then x.iet.top else x.iet.bottom).getLast? then none
    else some (if g.top then ⟨g.label, false⟩ else ⟨D.lengths.conns.endOf g.label, true⟩)

theorem sepOf_eq {D : Decomp σ T} {g : HalfEdge} {x : Comp T} (hx : D.comps[g.comp]? = some x) :
    D.sepOf g = if some g.label = (if g.top then x.iet.top else x.iet.bottom).getLast? then none
      else some (if g.top then ⟨g.label, false⟩ else ⟨D.lengths.conns.endOf g.label, true⟩) := by
  simp only [Decomp.sepOf, hx]

theorem after_last {l : List Label} (hl : l.Nodup) {a : Label} (ha : a ∈ l) :
    ∃ r, Decomp.after a l = .ok r ∧ (r = none ↔ some a = l.getLast?) := by
  obtain ⟨k, hk⟩ := List.getElem?_of_mem ha
  obtain ⟨hk', e⟩ := List.getElem?_eq_some_iff.1 hk
  refine ⟨_, after_getElem hl hk, ?_⟩
  rw [List.getElem?_eq_none_iff, List.getLast?_eq_getElem?, ← hk]
  constructor
  · intro h
    congr 1
    omega
  · intro h
    have := (List.getElem?_inj hk' hl).1 h
    omega

theorem filterMap_last {β : Type} (f : Label → β) : ∀ {l : List Label}, l.Nodup →
    l.filterMap (fun a => if some a = l.getLast? then none else some (f a)) = l.dropLast.map f
  | [], _ => rfl
  | [a], _ => by simp
  | a :: b :: l, h => by
    have ih := filterMap_last f (List.nodup_cons.1 h).2
    have ha : some a ≠ (b :: l).getLast? := by
      intro e
      exact (List.nodup_cons.1 h).1 (List.mem_of_getLast? e.symm)
    rw [List.getLast?_cons_cons, List.filterMap_cons, if_neg ha]
    simp only [List.dropLast_cons₂, List.map_cons, ih]

theorem DReach.separatrix (H : LawfulLengths O c ε) {L : PPL} (hL : L.Lawful) {E : IET T} {s : σ} (hE : H.Ok E s) {D : Decomp σ T}
    {steps : List DStep} (h : DReach L O E s D steps) {g : HalfEdge} (hg : g ∈ D.halfEdges) :
    (∃ x, D.comps[g.comp]? = some x ∧ g.label ∈ (if g.top then x.iet.top else x.iet.bottom)) ∧ D.separatrix g = .ok (D.sepOf g) := by
  obtain ⟨oc, e1, tr⟩ := (DReach.inv hL H (ι := AddMonoidHom.id T) strictMono_id hE h).track
  obtain ⟨hv, _, _⟩ := C35_partition H hL hE h
  obtain ⟨hkeys, _, _⟩ := DReach.around H hL hE h
  have hk := hkeys g hg
  simp only [Decomp.halfEdges, List.mem_flatMap] at hg
  obtain ⟨⟨x, i⟩, hq, hg⟩ := hg
  have hx : D.comps[i]? = some x := List.mem_zipIdx_iff_getElem?.1 hq
  obtain ⟨v, hs⟩ := hv x (List.mem_of_getElem? hx)
  have hnt : x.iet.top.Nodup := v.nodup
  have hnb : x.iet.bottom.Nodup := v.perm.nodup_iff.2 v.nodup
  simp only [Comp.topContour, Comp.bottomContour, hs, Bool.false_eq_true, if_false] at hg
  have hgc : g.comp = i ∧ g.label ∈ (if g.top then x.iet.top else x.iet.bottom) := by
    rcases List.mem_append.1 hg with hg | hg <;> obtain ⟨l, hl, rfl⟩ := List.mem_map.1 hg
    · exact ⟨rfl, by simpa using hl⟩
    · exact ⟨rfl, by simpa using hl⟩
  obtain ⟨rfl, hmem⟩ := hgc
  refine ⟨⟨x, hx, hmem⟩, ?_⟩
  have hn : (if g.top then x.iet.top else x.iet.bottom).Nodup := by split <;> assumption
  obtain ⟨r, hr, hr'⟩ := after_last hn hmem
  have hc : D.comp g.comp = .ok x := by simp only [Decomp.comp, hx]
  have hnext : D.next g = .ok (r.map (fun l => ⟨g.comp, l, g.top⟩)) := by
    simp only [Decomp.next, hc, bind, Except.bind, pure, Except.pure, hr]
  rw [sepOf_eq hx]
  simp only [Decomp.separatrix, hnext, bind, Except.bind, pure, Except.pure]
  cases r with
  | none => rw [if_pos (hr'.1 rfl)]; rfl
  | some r =>
    rw [if_neg (show ¬ some g.label = (if g.top then x.iet.top else x.iet.bottom).getLast? from fun e => by have := hr'.2 e; cases this)]
    cases ht : g.top
    · simp [Decomp.makeAtBottom_ok hk (tr.chain _)]
    · simp [Decomp.makeAtTop_ok hk (tr.topRight _)]

/-- **C53.** Every separatrix of the original IET (the right end points of all its intervals except the last ones: parallel ones on the bottom,
antiparallel ones on the top) is either the separatrix at exactly one half edge of the decomposition, or it is the source or target of exactly one
connection that has been reported. -/
theorem C53_all_separatrices (H : LawfulLengths O c ε) {L : PPL} (hL : L.Lawful) {E : IET T} {s : σ} (hE : H.Ok E s) {D : Decomp σ T}
    {steps : List DStep} (h : DReach L O E s D steps) :
    ∃ seps, D.halfEdges.mapM D.separatrix = .ok seps ∧
      (seps.filterMap id ++ ((reported steps).map Conn.source ++ (reported steps).map Conn.target)).Perm
        (E.bottom.dropLast.map (fun b => ⟨b, true⟩) ++ E.top.dropLast.map (fun t => ⟨t, false⟩)) ∧
      (E.bottom.dropLast.map (fun b => (⟨b, true⟩ : Sep)) ++ E.top.dropLast.map (fun t => (⟨t, false⟩ : Sep))).Nodup := by
  obtain ⟨oc, e1, tr⟩ := (DReach.inv hL H (ι := AddMonoidHom.id T) strictMono_id hE h).track
  obtain ⟨hv, _, _⟩ := C35_partition H hL hE h
  have hEn : E.top.Nodup := hE.valid.nodup
  have hEb : E.bottom.Nodup := hE.valid.perm.nodup_iff.2 hE.valid.nodup
  refine ⟨_, mapM_ok (fun g hg => (h.separatrix H hL hE hg).2), ?_, ?_⟩
  · have e2 : (D.halfEdges.map D.sepOf).filterMap id =
        D.comps.flatMap (fun x => x.iet.top.dropLast.map (fun t => (⟨t, false⟩ : Sep)) ++
          x.iet.bottom.dropLast.map (fun b => (⟨D.lengths.conns.endOf b, true⟩ : Sep))) := by
      rw [List.filterMap_map, ← flatMap_zipIdx (fun x : Comp T => x.iet.top.dropLast.map (fun t => (⟨t, false⟩ : Sep)) ++
          x.iet.bottom.dropLast.map (fun b => (⟨D.lengths.conns.endOf b, true⟩ : Sep))), Decomp.halfEdges, List.filterMap_flatMap]
      apply List.flatMap_congr
      rintro ⟨x, i⟩ hq
      have hx : D.comps[i]? = some x := List.mem_zipIdx_iff_getElem?.1 hq
      obtain ⟨v, hs⟩ := hv x (List.mem_of_getElem? hx)
      have hnt : x.iet.top.Nodup := v.nodup
      have hnb : x.iet.bottom.Nodup := v.perm.nodup_iff.2 v.nodup
      simp only [Comp.topContour, Comp.bottomContour, hs, Bool.false_eq_true, if_false, List.filterMap_append, List.filterMap_map]
      congr 1
      · rw [← filterMap_last (fun t => (⟨t, false⟩ : Sep)) hnt]
        apply List.filterMap_congr
        intro a _
        simp [Decomp.sepOf, hx]
      · rw [← filterMap_last (fun b => (⟨D.lengths.conns.endOf b, true⟩ : Sep)) hnb]
        apply List.filterMap_congr
        intro a _
        simp [Decomp.sepOf, hx]
    have hR1 : (reported steps).map Conn.source = ((reported steps).map (fun c => c.source.label)).map (fun b => ⟨b, true⟩) := by
      rw [List.map_map]
      apply List.map_congr_left
      intro x hx
      obtain ⟨p, _⟩ := tr.shape x hx
      obtain ⟨⟨_, _⟩, _⟩ := x
      simp_all
    have hR2 : (reported steps).map Conn.target = ((reported steps).map (fun c => c.target.label)).map (fun b => ⟨b, false⟩) := by
      rw [List.map_map]
      apply List.map_congr_left
      intro x hx
      obtain ⟨_, p⟩ := tr.shape x hx
      obtain ⟨_, ⟨_, _⟩⟩ := x
      simp_all
    have s1 := (tr.sources.map (fun b => (⟨b, true⟩ : Sep)))
    have s2 := (tr.targets.map (fun b => (⟨b, false⟩ : Sep)))
    rw [e2, hR1, hR2, ← e1]
    have e3 : (pcs H (AddMonoidHom.id T) D.lengths.inner oc).flatMap (fun p => p.2.bottom.dropLast.map D.lengths.conns.endOf) =
        (oc.map Prod.snd).flatMap (fun x => x.iet.bottom.dropLast.map D.lengths.conns.endOf) := by
      simp only [pcs, List.flatMap_map]
      rfl
    have e4 : (pcs H (AddMonoidHom.id T) D.lengths.inner oc).flatMap (fun p => p.2.top.dropLast) =
        (oc.map Prod.snd).flatMap (fun x => x.iet.top.dropLast) := by
      simp only [pcs, List.flatMap_map]
      rfl
    rw [e3, List.map_append, List.map_flatMap] at s1
    rw [e4, List.map_append, List.map_flatMap] at s2
    have s3 := flatMap_append_perm' (fun x : Comp T => x.iet.top.dropLast.map (fun t => (⟨t, false⟩ : Sep)))
      (fun x => x.iet.bottom.dropLast.map (fun b => (⟨D.lengths.conns.endOf b, true⟩ : Sep))) (oc.map Prod.snd)
    have s4 : (oc.map Prod.snd).flatMap (fun x => (x.iet.bottom.dropLast.map D.lengths.conns.endOf).map (fun b => (⟨b, true⟩ : Sep))) =
        (oc.map Prod.snd).flatMap (fun x => x.iet.bottom.dropLast.map (fun b => (⟨D.lengths.conns.endOf b, true⟩ : Sep))) := by
      apply List.flatMap_congr
      intro x _
      rw [List.map_map]
      rfl
    rw [s4] at s1
    replace s1 : List.Perm _ (E.bottom.dropLast.map (fun b => (⟨b, true⟩ : Sep))) := s1
    replace s2 : List.Perm _ (E.top.dropLast.map (fun b => (⟨b, false⟩ : Sep))) := s2
    rw [List.perm_iff_count] at *
    intro z
    have t1 := s1 z
    have t2 := s2 z
    have t3 := s3 z
    simp only [List.count_append] at t1 t2 t3 ⊢
    omega
  · rw [List.nodup_append]
    refine ⟨(hEb.sublist (List.dropLast_sublist _)).map (fun a b e => by injection e),
      (hEn.sublist (List.dropLast_sublist _)).map (fun a b e => by injection e), ?_⟩
    intro a ha b hb e
    obtain ⟨_, _, rfl⟩ := List.mem_map.1 ha
    obtain ⟨_, _, rfl⟩ := List.mem_map.1 hb
    cases e

/-- **C53.** What the separatrix at a half edge means.  There are positions of the components in the original IET (in the sense of C36) such that the
following holds.  If `⟨a, true⟩` is the separatrix at a half edge on the bottom, then following the original IET from the right end of the bottom interval
`a` leads to the right end of the half edge.  If `⟨t, false⟩` is the separatrix at a half edge on the top, then following the original IET from the right end
of the half edge leads to the right end of the top interval `t`. There is no separatrix exactly at the last half edges of the contours. -/
theorem C53_separatrix (H : LawfulLengths O c ε) {L : PPL} (hL : L.Lawful) {E : IET T} {s : σ} (hE : H.Ok E s) {D : Decomp σ T}
    {steps : List DStep} (h : DReach L O E s D steps) {ι : T →+ P} (hι : StrictMono ι) :
    ∃ os : List P, os.length = D.comps.length ∧
      Covers ((H.abs E s).map ι) (os.zip (D.comps.map (fun x => (H.abs x.iet D.lengths.inner).map ι))) ∧
      ∀ g ∈ D.halfEdges, ∃ o x r, os[g.comp]? = some o ∧ D.comps[g.comp]? = some x ∧ D.separatrix g = .ok r ∧
        (r = none ↔ D.next g = .ok none) ∧
        ∀ a p, r = some ⟨a, p⟩ → p = !g.top ∧
          (g.top = false → ∃ n, Iter ((H.abs E s).map ι).Maps n (((H.abs E s).map ι).rightBottom a)
            (((H.abs x.iet D.lengths.inner).map ι).rightBottom g.label + o)) ∧
          (g.top = true → ∃ n, Iter ((H.abs E s).map ι).Maps n (((H.abs x.iet D.lengths.inner).map ι).rightTop g.label + o)
            (((H.abs E s).map ι).rightTop a)) := by
  obtain ⟨oc, e1, tr⟩ := (DReach.inv hL H hι hE h).track
  obtain ⟨hv, _, _⟩ := C35_partition H hL hE h
  refine ⟨oc.map Prod.fst, by rw [← e1]; simp, ?_, ?_⟩
  · have e : (oc.map Prod.fst).zip (D.comps.map (fun x => (H.abs x.iet D.lengths.inner).map ι)) = pcs H ι D.lengths.inner oc := by
      rw [← e1, List.map_map, pcs, List.zip_map']
      rfl
    rw [e]
    exact tr.cover
  intro g hg
  obtain ⟨⟨x, hx, hmem⟩, hsep⟩ := h.separatrix H hL hE hg
  obtain ⟨v, hs⟩ := hv x (List.mem_of_getElem? hx)
  have hnt : x.iet.top.Nodup := v.nodup
  have hnb : x.iet.bottom.Nodup := v.perm.nodup_iff.2 v.nodup
  have hn : (if g.top then x.iet.top else x.iet.bottom).Nodup := by split <;> assumption
  obtain ⟨q, hq, hq2⟩ : ∃ q, oc[g.comp]? = some q ∧ q.2 = x := by
    rw [← e1, List.getElem?_map, Option.map_eq_some_iff] at hx
    exact hx
  subst hq2
  have hp : (q.1, (H.abs q.2.iet D.lengths.inner).map ι) ∈ pcs H ι D.lengths.inner oc := List.mem_map.2 ⟨q, List.mem_of_getElem? hq, rfl⟩
  obtain ⟨r, hr, hr'⟩ := after_last hn hmem
  have hc : D.comp g.comp = .ok q.2 := by simp only [Decomp.comp, hx]
  have hnext : D.next g = .ok (r.map (fun l => ⟨g.comp, l, g.top⟩)) := by
    simp only [Decomp.next, hc, bind, Except.bind, pure, Except.pure, hr]
  refine ⟨q.1, q.2, _, by rw [List.getElem?_map, hq]; rfl, hx, hsep, ?_, ?_⟩
  · rw [hnext, Except.ok.injEq, Option.map_eq_none_iff, hr', sepOf_eq hx]
    by_cases hlast : some g.label = (if g.top then q.2.iet.top else q.2.iet.bottom).getLast?
    · rw [if_pos hlast]; exact ⟨fun _ => hlast, fun _ => rfl⟩
    · rw [if_neg hlast]; exact ⟨(fun e => by cases e), fun e => absurd e hlast⟩
  · intro a p e
    rw [sepOf_eq hx] at e
    by_cases hlast : some g.label = (if g.top then q.2.iet.top else q.2.iet.bottom).getLast?
    · rw [if_pos hlast] at e
      cases e
    · rw [if_neg hlast] at e
      have hdl : g.label ∈ (if g.top then q.2.iet.top else q.2.iet.bottom).dropLast := by
        have hne : (if g.top then q.2.iet.top else q.2.iet.bottom) ≠ [] := List.ne_nil_of_mem hmem
        rcases List.mem_append.1 ((List.dropLast_append_getLast hne).symm ▸ hmem) with hm | hm
        · exact hm
        · exfalso
          apply hlast
          rw [List.getLast?_eq_some_getLast hne]
          simpa using hm
      cases ht : g.top
      · rw [ht] at e hdl
        simp only [Bool.false_eq_true, if_false, Option.some.injEq] at e hdl
        cases e
        exact ⟨rfl, fun _ => reflTransGen_iter (tr.geoBot _ hp _ hdl), (fun e => by cases e)⟩
      · rw [ht] at e hdl
        simp only [if_true, Option.some.injEq] at e hdl
        cases e
        exact ⟨rfl, (fun e => by cases e), fun _ => reflTransGen_iter (tr.geoTop _ hp _ hdl)⟩

/-- After the first connection of `intIET`, which is the one from `2` to `1`, the remaining separatrices are at the half edges. -/
example (L : PPL) : ∃ steps D, Decomp.runFrom L (SLengths.ops intArith) Examples.intIET Examples.intState 20 [(-1, 0)] = .ok (steps, D) ∧
    D.halfEdges.mapM D.separatrix = .ok [some ⟨2, false⟩, some ⟨0, false⟩, none, some ⟨3, true⟩, some ⟨1, true⟩, none] ∧
    reported steps = [⟨⟨2, true⟩, ⟨1, false⟩⟩] ∧ Examples.intIET.top = [0, 1, 2, 3] ∧ Examples.intIET.bottom = [3, 2, 1, 0] :=
  ⟨_, _, rfl, rfl, rfl, rfl, rfl⟩

end Verif
