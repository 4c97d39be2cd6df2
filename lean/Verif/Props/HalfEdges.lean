import Verif.Model.Hash
import Verif.Props.Boundary
import Verif.Props.Rounds
import Verif.ExamplesDecomp

/-!
# Half edges, equality and hashing, injected connections
-/

namespace Verif

set_option linter.unusedSectionVars false

/-! ### C44: next, previous, negation -/

theorem after_getElem {l : List Label} (hl : l.Nodup) {k : ℕ} {a : Label} (h : l[k]? = some a) :
    Decomp.after a l = .ok l[k + 1]? := by
  induction l generalizing k with
  | nil => simp at h
  | cons x l ih =>
    rw [List.nodup_cons] at hl
    cases k with
    | zero =>
      simp only [List.getElem?_cons_zero, Option.some.injEq] at h
      subst h
      simp [Decomp.after, List.head?_eq_getElem?]
    | succ k =>
      simp only [List.getElem?_cons_succ] at h ⊢
      have : x ≠ a := by rintro rfl; exact hl.1 (List.mem_of_getElem? h)
      simp only [Decomp.after, if_neg this]
      exact ih hl.2 h

theorem before_getElem {l : List Label} (hl : l.Nodup) {k : ℕ} {a : Label} (h : l[k]? = some a) :
    Decomp.after a l.reverse = .ok (if k = 0 then none else l[k - 1]?) := by
  have hk : k < l.length := by
    by_contra hk
    rw [List.getElem?_eq_none (by omega)] at h
    cases h
  have h' : l.reverse[l.length - 1 - k]? = some a := by
    rw [List.getElem?_reverse (by omega), ← h]
    congr 1
    omega
  rw [after_getElem (List.nodup_reverse.2 hl) h']
  congr 1
  split
  · exact List.getElem?_eq_none (by simp; omega)
  · rw [List.getElem?_reverse (by omega)]
    congr 1
    omega

section

variable {σ T ε : Type} [CommRing T] [LinearOrder T] [IsStrictOrderedRing T] {O : LengthsOps σ T} {d : ℕ} {c : T →+ (Fin d → ℚ)}

/-- **C44.** The contours of a component of a decomposition exist, they list different half edges of the component, and `next()` and `previous()`
walk along the contour from left to right and from right to left, respectively, on the top and on the bottom. -/
theorem C44_walk (H : LawfulLengths O c ε) {L : PPL} (hL : L.Lawful) {E : IET T} {s : σ} (hE : H.Ok E s) {D : Decomp σ T}
    {steps : List DStep} (h : DReach L O E s D steps) {i : ℕ} (hi : i < D.comps.length) :
    ∃ t b, D.topContour i = .ok t ∧ D.bottomContour i = .ok b ∧ t.Nodup ∧ b.Nodup ∧ t ≠ [] ∧ b ≠ [] ∧
      ∀ l, l = t ∨ l = b → ∀ k g, l[k]? = some g → D.component g = .ok i ∧ D.next g = .ok l[k + 1]? ∧
        D.previous g = .ok (if k = 0 then none else l[k - 1]?) := by
  obtain ⟨x, hx⟩ : ∃ x, D.comps[i]? = some x := ⟨_, List.getElem?_eq_getElem hi⟩
  obtain ⟨hv, hs⟩ := (C35_partition H hL hE h).1 x (List.mem_of_getElem? hx)
  have hc : D.comp i = .ok x := by simp only [Decomp.comp, hx]
  have hnb : x.iet.bottom.Nodup := hv.perm.nodup_iff.2 hv.nodup
  have hnt : x.iet.top.Nodup := hv.nodup
  have hbne : x.iet.bottom ≠ [] := fun e => hv.ne_nil (by simpa [LawfulLengths.abs, e] using hv.perm)
  have htop : D.topContour i = .ok (x.iet.top.map (fun l => ⟨i, l, true⟩)) := by
    simp [Decomp.topContour, hc, Comp.topContour, hs, bind, Except.bind, pure, Except.pure]
  have hbot : D.bottomContour i = .ok (x.iet.bottom.map (fun l => ⟨i, l, false⟩)) := by
    simp [Decomp.bottomContour, hc, Comp.bottomContour, hs, bind, Except.bind, pure, Except.pure]
  refine ⟨_, _, htop, hbot, ?_, ?_, ?_, ?_, ?_⟩
  · exact hnt.map (fun a b e => by injection e)
  · exact hnb.map (fun a b e => by injection e)
  · exact fun e => hv.ne_nil (List.map_eq_nil_iff.1 e)
  · simpa using hbne
  · intro l hl k g hg
    have key : ∀ (m : List Label) (top : Bool), m.Nodup → (if top then x.iet.top else x.iet.bottom) = m →
        l = m.map (fun l => ⟨i, l, top⟩) → D.component g = .ok i ∧ D.next g = .ok l[k + 1]? ∧
        D.previous g = .ok (if k = 0 then none else l[k - 1]?) := by
      rintro m top hm he rfl
      rw [List.getElem?_map, Option.map_eq_some_iff] at hg
      obtain ⟨a, ha, rfl⟩ := hg
      refine ⟨?_, ?_, ?_⟩
      · have hmem := List.mem_of_getElem? ha
        cases top with
        | true =>
          simp only [if_true] at he
          simp only [Decomp.component, if_true, htop, bind, Except.bind, pure, Except.pure, assertM, he]
          rw [if_pos (decide_eq_true (List.mem_map.2 ⟨a, hmem, rfl⟩))]
        | false =>
          simp only [Bool.false_eq_true, if_false] at he
          simp only [Decomp.component, Bool.false_eq_true, if_false, hbot, bind, Except.bind, pure, Except.pure, assertM, he]
          rw [if_pos (decide_eq_true (List.mem_map.2 ⟨a, hmem, rfl⟩))]
      · simp only [Decomp.next, hc, he, bind, Except.bind, pure, Except.pure, after_getElem hm ha, List.getElem?_map]
      · simp only [Decomp.previous, hc, he, bind, Except.bind, pure, Except.pure, before_getElem hm ha, List.getElem?_map]
        split <;> rfl
    rcases hl with hl | hl
    · exact key x.iet.top true hnt rfl hl
    · exact key x.iet.bottom false hnb rfl hl

/-- **C44.** On the half edges of a decomposition, `next()` and `previous()` always return, and they undo each other. -/
theorem C44_inverse (H : LawfulLengths O c ε) {L : PPL} (hL : L.Lawful) {E : IET T} {s : σ} (hE : H.Ok E s) {D : Decomp σ T}
    {steps : List DStep} (h : DReach L O E s D steps) {i : ℕ} {t b : List HalfEdge} (ht : D.topContour i = .ok t)
    (hb : D.bottomContour i = .ok b) {g g' : HalfEdge} (hg : g ∈ t ∨ g ∈ b) (hg' : g' ∈ t ∨ g' ∈ b) :
    (D.next g = .ok (some g') ↔ D.previous g' = .ok (some g)) ∧ (∃ r, D.next g = .ok r) ∧ (∃ r, D.previous g = .ok r) := by
  have hi : i < D.comps.length := by
    by_contra hi
    simp [Decomp.topContour, Decomp.comp, List.getElem?_eq_none (Nat.le_of_not_lt hi), bind, Except.bind] at ht
  obtain ⟨t', b', e1, e2, n1, n2, _, _, w⟩ := C44_walk H hL hE h hi
  rw [ht] at e1
  rw [hb] at e2
  cases e1
  cases e2
  obtain ⟨x, hx⟩ : ∃ x, D.comps[i]? = some x := ⟨_, List.getElem?_eq_getElem hi⟩
  have hc : D.comp i = .ok x := by simp only [Decomp.comp, hx]
  -- half edges of the two contours are never equal
  have htt : ∀ g ∈ t, g.top = true := by
    simp only [Decomp.topContour, hc, bind, Except.bind, pure, Except.pure, Except.ok.injEq] at ht
    subst ht
    intro g hg
    obtain ⟨_, _, rfl⟩ := List.mem_map.1 hg
    rfl
  have hbb : ∀ g ∈ b, g.top = false := by
    simp only [Decomp.bottomContour, hc, bind, Except.bind, pure, Except.pure, Except.ok.injEq] at hb
    subst hb
    intro g hg
    obtain ⟨_, _, rfl⟩ := List.mem_map.1 hg
    rfl
  have key : ∀ l l' : List HalfEdge, (l = t ∨ l = b) → (l' = t ∨ l' = b) → g ∈ l → g' ∈ l' →
      (D.next g = .ok (some g') ↔ D.previous g' = .ok (some g)) ∧ (∃ r, D.next g = .ok r) ∧ (∃ r, D.previous g = .ok r) := by
    intro l l' hl hl' hgl hgl'
    obtain ⟨k, hk⟩ := List.getElem?_of_mem hgl
    obtain ⟨k', hk'⟩ := List.getElem?_of_mem hgl'
    obtain ⟨_, h1, h2⟩ := w l hl k g hk
    obtain ⟨_, h3, h4⟩ := w l' hl' k' g' hk'
    refine ⟨?_, ⟨_, h1⟩, ⟨_, h2⟩⟩
    rw [h1, h4, Except.ok.injEq, Except.ok.injEq]
    have hn : l.Nodup := by rcases hl with rfl | rfl <;> assumption
    have hn' : l'.Nodup := by rcases hl' with rfl | rfl <;> assumption
    have hll : (∃ y, y ∈ l ∧ y ∈ l') → l = l' := by
      rintro ⟨y, y1, y2⟩
      rcases hl with rfl | rfl <;> rcases hl' with rfl | rfl
      · rfl
      · have := htt y y1; rw [hbb y y2] at this; cases this
      · have := htt y y2; rw [hbb y y1] at this; cases this
      · rfl
    constructor
    · intro e
      have := hll ⟨g', List.mem_of_getElem? e, hgl'⟩
      subst this
      have hkk : k + 1 = k' := by
        obtain ⟨p1, q1⟩ := List.getElem?_eq_some_iff.1 e
        obtain ⟨p2, q2⟩ := List.getElem?_eq_some_iff.1 hk'
        exact (List.Nodup.getElem_inj_iff hn).1 (q1.trans q2.symm)
      subst hkk
      simpa using hk
    · intro e
      split at e
      · cases e
      · rename_i hk0
        have := hll ⟨g, hgl, List.mem_of_getElem? e⟩
        subst this
        have hkk : k' - 1 = k := by
          obtain ⟨p1, q1⟩ := List.getElem?_eq_some_iff.1 e
          obtain ⟨p2, q2⟩ := List.getElem?_eq_some_iff.1 hk
          exact (List.Nodup.getElem_inj_iff hn).1 (q1.trans q2.symm)
        rw [show k + 1 = k' by omega]
        exact hk'
  rcases hg with hg | hg <;> rcases hg' with hg' | hg'
  · exact key t t (.inl rfl) (.inl rfl) hg hg'
  · exact key t b (.inl rfl) (.inr rfl) hg hg'
  · exact key b t (.inr rfl) (.inl rfl) hg hg'
  · exact key b b (.inr rfl) (.inr rfl) hg hg'

/-- **C44.** Negation is an involution that exchanges the half edges on top and on the bottom; every half edge occurs exactly once in the
decomposition, with its negative in the other contour of the same component. -/
theorem C44_negation (H : LawfulLengths O c ε) {L : PPL} (hL : L.Lawful) {E : IET T} {s : σ} (hE : H.Ok E s) {D : Decomp σ T}
    {steps : List DStep} (h : DReach L O E s D steps) {i : ℕ} {t b : List HalfEdge} (ht : D.topContour i = .ok t)
    (hb : D.bottomContour i = .ok b) (g : HalfEdge) :
    g.neg.neg = g ∧ g.neg ≠ g ∧ g.neg.label = g.label ∧ (g ∈ t ↔ g.neg ∈ b) ∧ (g ∈ b ↔ g.neg ∈ t) ∧
      (g ∈ t → g.top = true) ∧ (g ∈ b → g.top = false) ∧
      ∀ j t' b', j ≠ i → D.topContour j = .ok t' → D.bottomContour j = .ok b' → ∀ g' ∈ t' ++ b', g ∈ t ++ b → g'.label ≠ g.label := by
  obtain ⟨k, l, top⟩ := g
  obtain ⟨hv, hp, _⟩ := C35_partition H hL hE h
  have get : ∀ {j : ℕ} {t b : List HalfEdge}, D.topContour j = .ok t → D.bottomContour j = .ok b → ∃ x, D.comps[j]? = some x ∧
      t = x.iet.top.map (fun l => ⟨j, l, true⟩) ∧ b = x.iet.bottom.map (fun l => ⟨j, l, false⟩) ∧ x.iet.bottom.Perm x.iet.top := by
    intro j t b ht hb
    cases hx : D.comps[j]? with
    | none => simp [Decomp.topContour, Decomp.comp, hx, bind, Except.bind] at ht
    | some x =>
      obtain ⟨v, hs⟩ := hv x (List.mem_of_getElem? hx)
      simp only [Decomp.topContour, Decomp.comp, hx, Comp.topContour, hs, Bool.false_eq_true, if_false, bind, Except.bind, pure, Except.pure,
        Except.ok.injEq] at ht
      simp only [Decomp.bottomContour, Decomp.comp, hx, Comp.bottomContour, hs, Bool.false_eq_true, if_false, bind, Except.bind, pure, Except.pure,
        Except.ok.injEq] at hb
      exact ⟨x, rfl, ht.symm, hb.symm, v.perm⟩
  obtain ⟨x, hx, rfl, rfl, hperm⟩ := get ht hb
  refine ⟨by simp [HalfEdge.neg], by simp [HalfEdge.neg], rfl, ?_, ?_, ?_, ?_, ?_⟩
  · simp only [List.mem_map, HalfEdge.neg]
    constructor
    · rintro ⟨a, ha, e⟩
      cases e
      exact ⟨l, hperm.mem_iff.2 ha, rfl⟩
    · rintro ⟨a, ha, e⟩
      cases top
      · cases e
      · cases e
        exact ⟨l, hperm.mem_iff.1 ha, rfl⟩
  · simp only [List.mem_map, HalfEdge.neg]
    constructor
    · rintro ⟨a, ha, e⟩
      cases e
      exact ⟨l, hperm.mem_iff.1 ha, rfl⟩
    · rintro ⟨a, ha, e⟩
      cases top
      · cases e
        exact ⟨l, hperm.mem_iff.2 ha, rfl⟩
      · cases e
  · intro hg
    obtain ⟨_, _, e⟩ := List.mem_map.1 hg
    cases e
    rfl
  · intro hg
    obtain ⟨_, _, e⟩ := List.mem_map.1 hg
    cases e
    rfl
  · intro j t' b' hj ht' hb' g' hg' hg
    obtain ⟨y, hy, rfl, rfl, hperm'⟩ := get ht' hb'
    have h1 : l ∈ x.iet.top := by
      rcases List.mem_append.1 hg with hg | hg <;> obtain ⟨_, ha, e⟩ := List.mem_map.1 hg <;> cases e
      · exact ha
      · exact hperm.mem_iff.1 ha
    have h2 : g'.label ∈ y.iet.top := by
      rcases List.mem_append.1 hg' with hg | hg <;> obtain ⟨_, ha, e⟩ := List.mem_map.1 hg <;> cases e
      · exact ha
      · exact hperm'.mem_iff.1 ha
    intro e
    obtain ⟨p1, q1⟩ := List.getElem?_eq_some_iff.1 hx
    obtain ⟨p2, q2⟩ := List.getElem?_eq_some_iff.1 hy
    rw [List.pairwise_iff_getElem] at hp
    rcases Nat.lt_or_gt_of_ne hj with hlt | hlt
    · have := hp j i p2 p1 hlt g'.label (by rw [q2]; exact h2)
      rw [q1, e] at this
      exact this h1
    · have := hp i j p1 p2 hlt l (by rw [q1]; exact h1)
      rw [q2] at this
      exact this (by rw [← show g'.label = l from e]; exact h2)

end

/-- Walking along the contours of a component with three intervals. -/
example (L : PPL) : ∃ steps D, Decomp.runFrom L (SLengths.ops intArith) Examples.intIET Examples.intState 20 [(-1, 0)] = .ok (steps, D) ∧
    D.topContour 0 = .ok [⟨0, 2, true⟩, ⟨0, 0, true⟩, ⟨0, 3, true⟩] ∧ D.next ⟨0, 2, true⟩ = .ok (some ⟨0, 0, true⟩) ∧
    D.previous ⟨0, 0, true⟩ = .ok (some ⟨0, 2, true⟩) ∧ D.next ⟨0, 3, true⟩ = .ok none :=
  ⟨_, _, rfl, rfl, rfl, rfl, rfl⟩

/-! ### C45: equality and hashing -/

/-- **C45.** Equality of separatrices is an equivalence relation that is compatible with hashing. -/
theorem C45_separatrix : Equivalence (fun s t : Sep => s.eq t = true) ∧ (∀ s t : Sep, s.eq t = true → s.hash = t.hash) ∧
    ∀ s t : Sep, s.eq t = true ↔ s.label = t.label ∧ s.parallel = t.parallel := by
  have key : ∀ s t : Sep, s.eq t = true ↔ s = t := by
    rintro ⟨a, p⟩ ⟨b, q⟩
    simp [Sep.eq]
  refine ⟨⟨fun s => (key s s).2 rfl, fun h => (key _ _).2 ((key _ _).1 h).symm, fun h h' => (key _ _).2 (((key _ _).1 h).trans ((key _ _).1 h'))⟩,
    fun s t h => by rw [(key s t).1 h], fun s t => by simp [Sep.eq]⟩

theorem Conn.eq_iff (c d : Conn) : c.eq d = true ↔ c = d := by
  obtain ⟨⟨a, p⟩, ⟨b, q⟩⟩ := c
  obtain ⟨⟨a', p'⟩, ⟨b', q'⟩⟩ := d
  simp [Conn.eq, Sep.eq]

/-- **C45.** Equality of connections is an equivalence relation that is compatible with hashing and with negation, negation is an involution that
exchanges source and target. -/
theorem C45_connection : Equivalence (fun c d : Conn => c.eq d = true) ∧ (∀ c d : Conn, c.eq d = true → c.hash = d.hash) ∧
    (∀ c d : Conn, c.eq d = true ↔ c.source.eq d.source = true ∧ c.target.eq d.target = true) ∧
    ∀ c d : Conn, c.neg.neg = c ∧ c.neg.source = c.target ∧ c.neg.target = c.source ∧ c.neg.eq d.neg = c.eq d := by
  refine ⟨⟨fun s => (Conn.eq_iff s s).2 rfl, fun h => (Conn.eq_iff _ _).2 ((Conn.eq_iff _ _).1 h).symm,
    fun h h' => (Conn.eq_iff _ _).2 (((Conn.eq_iff _ _).1 h).trans ((Conn.eq_iff _ _).1 h'))⟩,
    fun s t h => by rw [(Conn.eq_iff s t).1 h], fun c d => by simp [Conn.eq], fun c d => ⟨rfl, rfl, rfl, by simp [Conn.eq, Conn.neg, Bool.and_comm]⟩⟩

section

variable {σ T ε : Type} [CommRing T] [LinearOrder T] [IsStrictOrderedRing T] {O : LengthsOps σ T} {d : ℕ} {c : T →+ (Fin d → ℚ)}

/-- **C45.** The connections in the boundary of a component of a decomposition are either parallel or antiparallel, and negation exchanges
the two. -/
theorem C45_orientation (H : LawfulLengths O c ε) {L : PPL} (hL : L.Lawful) {E : IET T} {s : σ} (hE : H.Ok E s) {D : Decomp σ T}
    {steps : List DStep} (h : DReach L O E s D steps) {g : HalfEdge} (hg : g ∈ D.halfEdges) {x : Conn} :
    (∀ l, D.heLeft g = .ok l → x ∈ l → x.antiparallel = true ∧ x.neg.parallel = true ∧ x.source.parallel = false ∧ x.target.parallel = true) ∧
    (∀ r, D.heRight g = .ok r → x ∈ r → x.parallel = true ∧ x.neg.antiparallel = true ∧ x.source.parallel = true ∧ x.target.parallel = false) := by
  obtain ⟨oc, e1, tr⟩ := (DReach.inv hL H (ι := AddMonoidHom.id T) strictMono_id hE h).track
  obtain ⟨h1, h2, _⟩ := DReach.around H hL hE h
  have hk : g.label ∈ ((H.abs E s).map (AddMonoidHom.id T)).top := by rw [← tr.keys]; exact h1 g hg
  have hc := connections_ok (h1 g hg)
  refine ⟨fun l hl hx => ?_, fun r hr hx => ?_⟩
  · have : x ∈ leftOf (D.lengths.conns.val g.label) := by
      simp only [Decomp.heLeft, hc, bind, Except.bind, pure, Except.pure, Except.ok.injEq] at hl
      subst hl
      unfold leftOf
      split at hx
      · exact List.mem_append_left _ hx
      · exact List.mem_append_right _ hx
    have := tr.left.mem_iff.1 (List.mem_flatMap.2 ⟨_, hk, this⟩)
    obtain ⟨y, hy, rfl⟩ := List.mem_map.1 this
    obtain ⟨p, q⟩ := tr.shape y hy
    simp [Conn.antiparallel, Conn.parallel, Conn.neg, p, q]
  · have : x ∈ (D.lengths.conns.val g.label).bottomRight := by
      simp only [Decomp.heRight, hc, bind, Except.bind, pure, Except.pure, Except.ok.injEq] at hr
      subst hr
      split at hx
      · rw [tr.topRight] at hx; cases hx
      · exact hx
    have := tr.right.mem_iff.1 (List.mem_flatMap.2 ⟨_, hk, this⟩)
    obtain ⟨p, q⟩ := tr.shape x this
    simp [Conn.antiparallel, Conn.parallel, Conn.neg, p, q]

/-- **C45.** Half edges of a decomposition can be compared: the assertion in the comparison does not fail, half edges are equal
exactly if they have the same label and are on the same side, and then they have the same hash. -/
theorem C45_halfEdge (H : LawfulLengths O c ε) {L : PPL} (hL : L.Lawful) {E : IET T} {s : σ} (hE : H.Ok E s) {D : Decomp σ T}
    {steps : List DStep} (h : DReach L O E s D steps) {g g' : HalfEdge} (hg : g ∈ D.halfEdges) (hg' : g' ∈ D.halfEdges) :
    (∃ b, g.eq g' = .ok b ∧ (b = true ↔ g.label = g'.label ∧ g.top = g'.top) ∧ (b = true → g = g' ∧ g.hash = g'.hash)) := by
  obtain ⟨hv, hp, _⟩ := C35_partition H hL hE h
  have get : ∀ g ∈ D.halfEdges, ∃ x, D.comps[g.comp]? = some x ∧ g.label ∈ x.iet.top := by
    intro g hg
    simp only [Decomp.halfEdges, List.mem_flatMap] at hg
    obtain ⟨q, hq, hg⟩ := hg
    have hq' := List.mem_zipIdx_iff_getElem?.1 hq
    obtain ⟨v, hs⟩ := hv q.1 (List.mem_of_getElem? hq')
    rcases List.mem_append.1 hg with hg | hg <;> obtain ⟨l, hl, rfl⟩ := List.mem_map.1 hg
    · exact ⟨_, hq', by simpa [Comp.topContour, hs] using hl⟩
    · exact ⟨_, hq', v.perm.mem_iff.1 (show l ∈ q.1.iet.bottom by simpa [Comp.bottomContour, hs] using hl)⟩
  obtain ⟨x, hx, hl⟩ := get g hg
  obtain ⟨x', hx', hl'⟩ := get g' hg'
  by_cases e : g.label = g'.label
  · have hc : g.comp = g'.comp := by
      by_contra hne
      obtain ⟨p1, q1⟩ := List.getElem?_eq_some_iff.1 hx
      obtain ⟨p2, q2⟩ := List.getElem?_eq_some_iff.1 hx'
      rw [List.pairwise_iff_getElem] at hp
      rcases Nat.lt_or_gt_of_ne hne with hlt | hlt
      · exact hp _ _ p1 p2 hlt g.label (by rw [q1]; exact hl) (by rw [q2, e]; exact hl')
      · exact hp _ _ p2 p1 hlt g'.label (by rw [q2]; exact hl') (by rw [q1, ← e]; exact hl)
    refine ⟨g.top = g'.top, ?_, ?_, ?_⟩
    · simp only [HalfEdge.eq, if_pos e, assertM, bind, Except.bind, pure, Except.pure]
      rw [if_pos (decide_eq_true hc)]
      simp [hc]
    · simp [e]
    · intro ht
      have : g = g' := by
        obtain ⟨_, _, _⟩ := g
        obtain ⟨_, _, _⟩ := g'
        simp_all
      exact ⟨this, by rw [this]⟩
  · refine ⟨false, by simp only [HalfEdge.eq, if_neg e], ?_, (fun e => by cases e)⟩
    simp [e]

end

/-- Half edges of two components are compared; the hashes of the two sides of a connection. -/
example (L : PPL) : ∃ steps D, Decomp.runFrom L (SLengths.ops intArith) Examples.intIET Examples.intState 20 Examples.intCalls = .ok (steps, D) ∧
    D.halfEdges = [⟨0, 2, true⟩, ⟨0, 2, false⟩, ⟨1, 3, true⟩, ⟨1, 3, false⟩] ∧ HalfEdge.eq ⟨0, 2, true⟩ ⟨1, 3, true⟩ = .ok false ∧
    HalfEdge.eq ⟨0, 2, true⟩ ⟨0, 2, false⟩ = .ok false ∧ HalfEdge.eq ⟨0, 2, true⟩ ⟨0, 2, true⟩ = .ok true ∧
    (⟨⟨1, true⟩, ⟨2, false⟩⟩ : Conn).hash = 1 - 2 ^ 33 :=
  ⟨_, _, rfl, rfl, rfl, rfl, rfl, by decide⟩

/-- A half edge that has been kept from before a step cannot always be compared: label 3 was in component 0 before the
third connection has been found and is in component 1 afterwards. -/
example (L : PPL) : (∃ steps D, Decomp.runFrom L (SLengths.ops intArith) Examples.intIET Examples.intState 20 (Examples.intCalls.take 3) = .ok (steps, D) ∧
      (⟨0, 3, true⟩ : HalfEdge) ∈ D.halfEdges) ∧
    (∃ steps D, Decomp.runFrom L (SLengths.ops intArith) Examples.intIET Examples.intState 20 (Examples.intCalls.take 4) = .ok (steps, D) ∧
      (⟨1, 3, true⟩ : HalfEdge) ∈ D.halfEdges) ∧ HalfEdge.eq ⟨0, 3, true⟩ ⟨1, 3, true⟩ = .error .assertFailed :=
  ⟨⟨_, _, rfl, by decide⟩, ⟨_, _, rfl, by decide⟩, rfl⟩

/-! ### C48: injected connections -/

section

variable {σ T : Type}

theorem connections_at {D : Decomp σ T} {l : Label} (h : l ∈ D.lengths.conns.keys) : D.connections l = .ok (D.lengths.conns.val l) := by
  simp [Decomp.connections, ConnMap.at', h]

/-- **C48.** When `inject()` returns, it returns the given connections in the given order: the ones on the left are oriented from top to bottom, the ones
on the right from bottom to top.  They are recorded at the half edge, in the given order when proceeding towards the interior (`left()` and `right()` list
them from bottom to top), and nothing else has changed. -/
theorem C48_inject {D D' : Decomp σ T} {h : HalfEdge} {left right : List (Label × Label)} {l r : List Conn}
    (hr : D.inject h left right = .ok ((l, r), D')) :
    l = left.map (fun p => ⟨⟨p.1, false⟩, ⟨p.2, true⟩⟩) ∧ r = right.map (fun p => ⟨⟨p.1, true⟩, ⟨p.2, false⟩⟩) ∧
    (∃ l₀ r₀, D.heLeft h = .ok l₀ ∧ D.heRight h = .ok r₀ ∧ (l = [] ∨ l₀ = []) ∧ (r = [] ∨ r₀ = []) ∧
      D'.heLeft h = .ok (if h.top then l₀ ++ l.reverse else l₀ ++ l) ∧ D'.heRight h = .ok (if h.top then r₀ ++ r.reverse else r₀ ++ r)) ∧
    (∀ g : HalfEdge, g.label ≠ h.label ∨ g.top ≠ h.top → D'.heLeft g = D.heLeft g ∧ D'.heRight g = D.heRight g) ∧
    D'.comps = D.comps ∧ D'.lengths.inner = D.lengths.inner ∧ D'.lengths.stack = D.lengths.stack ∧ D.check = .ok () ∧ D'.check = .ok () := by
  simp only [Decomp.inject, bindM_ok] at hr
  obtain ⟨⟨⟩, h1, cs, h2, ⟨⟩, h3, D₁, h4, ⟨⟩, h5, D₂, h6, ⟨⟩, h7, h8⟩ := hr
  cases h8
  have hk : h.label ∈ D.lengths.conns.keys := by
    simp only [Decomp.connections, ConnMap.at'] at h2
    split at h2
    · assumption
    · cases h2
  have hcs : cs = D.lengths.conns.val h.label := by
    rw [connections_at hk] at h2
    cases h2
    rfl
  simp only [Decomp.modify, ConnMap.update, ConnMap.at', if_pos hk, bind, Except.bind, pure, Except.pure, Except.ok.injEq] at h4
  subst h4
  simp only [Decomp.modify, ConnMap.update, ConnMap.at', ConnMap.set, if_pos hk, bind, Except.bind, pure, Except.pure, Except.ok.injEq] at h6
  subst h6
  simp only [assertM] at h3 h5
  have a3 : left = [] ∨ (if h.top then cs.topLeft else cs.bottomLeft) = [] := by
    by_contra hne
    rw [if_neg (by simpa using hne)] at h3
    cases h3
  have a5 : right = [] ∨ (if h.top then cs.topRight else cs.bottomRight) = [] := by
    by_contra hne
    rw [if_neg (by simpa using hne)] at h5
    cases h5
  subst hcs
  clear h3 h5 h2
  obtain ⟨i, a, top⟩ := h
  replace hk : a ∈ D.lengths.conns.keys := hk
  refine ⟨?_, ?_, ⟨if top then (D.lengths.conns.val a).topLeft else (D.lengths.conns.val a).bottomLeft,
    if top then (D.lengths.conns.val a).topRight else (D.lengths.conns.val a).bottomRight, ?_, ?_, ?_, ?_, ?_, ?_⟩, ?_, rfl, rfl, rfl, h1, h7⟩
  · cases top <;> simp [Decomp.injectLeft]
  · cases top <;> simp [Decomp.injectRight]
  · simp [Decomp.heLeft, connections_at hk, bind, Except.bind, pure, Except.pure]
  · simp [Decomp.heRight, connections_at hk, bind, Except.bind, pure, Except.pure]
  · rcases a3 with a3 | a3
    · left; cases top <;> simp [Decomp.injectLeft, a3]
    · right; exact a3
  · rcases a5 with a5 | a5
    · left; cases top <;> simp [Decomp.injectRight, a5]
    · right; exact a5
  · cases top <;> simp [Decomp.heLeft, Decomp.connections, ConnMap.at', hk, bind, Except.bind, pure, Except.pure, Decomp.injectLeft]
  · cases top <;> simp [Decomp.heRight, Decomp.connections, ConnMap.at', hk, bind, Except.bind, pure, Except.pure, Decomp.injectRight]
  · rintro ⟨j, b, top'⟩ hne
    by_cases hab : b = a
    · subst hab
      have hne : top' ≠ top := by simpa using hne
      constructor <;> cases top <;> cases top' <;>
        simp [Decomp.heLeft, Decomp.heRight, Decomp.connections, ConnMap.at', hk, bind, Except.bind, pure, Except.pure] at hne ⊢
    · constructor <;> simp [Decomp.heLeft, Decomp.heRight, Decomp.connections, ConnMap.at', hab, bind, Except.bind, pure, Except.pure]

/-- Injecting two connections on the left and one on the right of a half edge on top; then there are no other connections to be injected there. -/
example : ∃ (D : Decomp (SLengths ℤ) ℤ), Decomp.make (SLengths.ops intArith) Examples.intIET Examples.intState = .ok D ∧ ∃ D',
    D.inject ⟨0, 2, true⟩ [(2, 1), (0, 2)] [(4, 5)] =
      .ok (([⟨⟨2, false⟩, ⟨1, true⟩⟩, ⟨⟨0, false⟩, ⟨2, true⟩⟩], [⟨⟨4, true⟩, ⟨5, false⟩⟩]), D') ∧
    D'.heLeft ⟨0, 2, true⟩ = .ok [⟨⟨0, false⟩, ⟨2, true⟩⟩, ⟨⟨2, false⟩, ⟨1, true⟩⟩] ∧ D'.heRight ⟨0, 2, true⟩ = .ok [⟨⟨4, true⟩, ⟨5, false⟩⟩] ∧
    D'.heLeft ⟨0, 2, false⟩ = .ok [] ∧ D'.inject ⟨0, 2, true⟩ [(3, 7)] [] = .error .assertFailed :=
  ⟨_, rfl, _, rfl, rfl, rfl, rfl, rfl⟩

end

end Verif
