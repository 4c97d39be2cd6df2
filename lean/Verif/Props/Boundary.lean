import Verif.ExamplesDecomp
import Verif.Proofs.Boundary
import Verif.Props.Decomposition

/-!
# C41, C50: the connections on the boundary of components
-/

namespace Verif

set_option linter.unusedSectionVars false

variable {σ T ε : Type} [CommRing T] [LinearOrder T] [IsStrictOrderedRing T] {O : LengthsOps σ T} {d : ℕ} {c : T →+ (Fin d → ℚ)}

/-! ### C41 -/

theorem nodup_of_map {α β : Type} {f : α → β} {l : List α} (h : (l.map f).Nodup) : l.Nodup := List.Nodup.of_map f h

theorem Decomp.Inv.around {H : LawfulLengths O c ε} {D : Decomp σ T} {A₀ : AIET T} {R : List Conn} {au : Bool → Prop} {el : List Label}
    (hinv : D.Inv H (AddMonoidHom.id T) A₀ R au) (hv : A₀.Valid) (h3 : (D.comps.flatMap (fun x => x.iet.top) ++ el).Perm A₀.top) :
    (∀ g ∈ D.halfEdges, g.label ∈ D.lengths.conns.keys) ∧
    (D.halfEdges.flatMap D.lengths.conns.around).Perm (R ++ R.map Conn.neg) ∧ (R ++ R.map Conn.neg).Nodup := by
  obtain ⟨oc, h1, h2⟩ := hinv.track
  have hmem : ∀ x ∈ D.comps, ∀ a ∈ x.iet.top, a ∈ A₀.top := fun x hx a ha =>
    h3.mem_iff.mp (List.mem_append_left _ (List.mem_flatMap.mpr ⟨x, hx, ha⟩))
  have hsw : ∀ x ∈ D.comps, x.iet.swapped = false ∧ x.iet.bottom.Perm x.iet.top := fun x hx =>
    ⟨hinv.swapped x hx, (hinv.good x hx).ok.valid.perm⟩
  have hkeys : D.lengths.conns.keys = A₀.top := h2.keys
  refine ⟨?_, ?_, ?_⟩
  · show ∀ g ∈ D.halfEdges, g.label ∈ D.lengths.conns.keys
    · intro g hg
      rw [hkeys]
      obtain ⟨⟨x, i⟩, hx, hg⟩ := List.mem_flatMap.mp hg
      have hx := List.fst_mem_of_mem_zipIdx hx
      obtain ⟨g1, g2⟩ := hsw x hx
      simp only [Comp.topContour, Comp.bottomContour, g1, Bool.false_eq_true, if_false, List.mem_append, List.mem_map] at hg
      rcases hg with ⟨a, ha, rfl⟩ | ⟨a, ha, rfl⟩
      · exact hmem x hx a ha
      · exact hmem x hx a (g2.mem_iff.mp ha)
  · · refine (halfEdges_around D.lengths.conns hsw).trans ?_
      have hgone : ∀ l, l ∉ D.comps.flatMap (fun x => x.iet.top) →
          leftOf (D.lengths.conns.val l) ++ ((D.lengths.conns.val l).topRight ++ (D.lengths.conns.val l).bottomRight) = [] := by
        intro l hl
        have : D.lengths.conns.val l = {} := by
          apply h2.gone
          intro p hp
          obtain ⟨q, hq, rfl⟩ := List.mem_map.mp hp
          intro hl'
          apply hl
          rw [← h1]
          exact List.mem_flatMap.mpr ⟨q.2, List.mem_map_of_mem hq, hl'⟩
        rw [this]; rfl
      refine (perm_gone hv.nodup h3 hgone).trans ?_
      refine (flatMap_append_perm' _ _ _).trans ?_
      refine List.perm_append_comm.trans (List.Perm.append ?_ h2.left)
      have e : ∀ l, (D.lengths.conns.val l).topRight ++ (D.lengths.conns.val l).bottomRight = (D.lengths.conns.val l).bottomRight := fun l => by
        rw [h2.topRight l, List.nil_append]
      simp only [e]
      exact h2.right
  · have hn : R.Nodup := by
      apply nodup_of_map (f := fun c : Conn => c.target.label)
      exact (List.nodup_append.mp (h2.targets.nodup_iff.mpr (hv.nodup.sublist (List.dropLast_sublist _)))).2.1
    rw [List.nodup_append]
    refine ⟨hn, ?_, ?_⟩
    · refine (List.nodup_map_iff ?_).mpr hn
      rintro ⟨a, b⟩ ⟨a', b'⟩ e
      simp only [Conn.neg, Conn.mk.injEq] at e ⊢
      exact ⟨e.2, e.1⟩
    · rintro x hx y hy rfl
      obtain ⟨z, hz, rfl⟩ := List.mem_map.mp hy
      have e1 := (h2.shape z hz).2
      have e2 := (h2.shape _ hx).1
      simp only [Conn.neg] at e2
      rw [e1] at e2
      cases e2

theorem DReach.around (H : LawfulLengths O c ε) {L : PPL} (hL : L.Lawful) {E : IET T} {s : σ} (hE : H.Ok E s)
    {D : Decomp σ T} {steps : List DStep} (h : DReach L O E s D steps) :
    (∀ g ∈ D.halfEdges, g.label ∈ D.lengths.conns.keys) ∧
    (D.halfEdges.flatMap D.lengths.conns.around).Perm (reported steps ++ (reported steps).map Conn.neg) ∧
    (reported steps ++ (reported steps).map Conn.neg).Nodup :=
  (h.inv hL H (ι := AddMonoidHom.id T) (fun _ _ h => h) hE).around hE.valid (C35_partition H hL hE h).2.2

theorem mapM_around {D : Decomp σ T} {hs : List HalfEdge} (hk : ∀ g ∈ hs, g.label ∈ D.lengths.conns.keys) :
    hs.mapM (fun h => do return (← D.heLeft h) ++ (← D.heRight h)) = .ok (hs.map D.lengths.conns.around) := by
  refine mapM_ok ?_
  intro g hg
  simp only [Decomp.heLeft, Decomp.heRight, connections_ok (hk g hg), bind, Except.bind, pure, Except.pure, ConnMap.around]
  cases g.top <;> rfl

/-- **C41** In every reachable state, the connections left and right of all half edges of all components are the reported
connections and their reverses; each of these is different from all the others, so every connection is recorded exactly twice, once in each direction. -/
theorem C41_recorded_twice (H : LawfulLengths O c ε) {L : PPL} (hL : L.Lawful) {E : IET T} {s : σ} (hE : H.Ok E s)
    {D : Decomp σ T} {steps : List DStep} (h : DReach L O E s D steps) :
    (∃ cs, D.halfEdges.mapM (fun h => do return (← D.heLeft h) ++ (← D.heRight h)) = .ok cs ∧
      cs.flatten.Perm (reported steps ++ (reported steps).map Conn.neg)) ∧
    (reported steps ++ (reported steps).map Conn.neg).Nodup := by
  obtain ⟨h1, h2, h3⟩ := h.around H hL hE
  exact ⟨⟨_, mapM_around h1, by rw [← List.flatMap_def]; exact h2⟩, h3⟩

theorem Decomp.Inv.check {H : LawfulLengths O c ε} {D : Decomp σ T} {A₀ : AIET T} {R : List Conn} {au : Bool → Prop}
    (hinv : D.Inv H (AddMonoidHom.id T) A₀ R au) (hv : A₀.Valid) : D.check = .ok () := by
  obtain ⟨oc, h1, h2⟩ := hinv.track
  have hkeys : D.lengths.conns.keys = A₀.top := h2.keys
  have hright : ∀ l ∈ A₀.top, ∀ x ∈ (D.lengths.conns.val l).bottomRight, x ∈ R := fun l hl x hx =>
    h2.right.mem_iff.mp (List.mem_flatMap.mpr ⟨l, hl, hx⟩)
  have hleft : ∀ l ∈ A₀.top, ∀ x ∈ leftOf (D.lengths.conns.val l), x ∈ R.map Conn.neg := fun l hl x hx =>
    h2.left.mem_iff.mp (List.mem_flatMap.mpr ⟨l, hl, hx⟩)
  unfold Decomp.check
  rw [hkeys]
  have e1 : A₀.top.forM (fun l => do
      assertM ((Decomp.leftConns (D.lengths.conns.val l)).all Conn.antiparallel)
      assertM ((Decomp.rightConns (D.lengths.conns.val l)).all Conn.parallel)) = .ok () := by
    refine forM_ok (fun l hl => ?_)
    have g1 : (Decomp.leftConns (D.lengths.conns.val l)).all Conn.antiparallel = true := by
      rw [List.all_eq_true]
      intro x hx
      obtain ⟨z, hz, rfl⟩ := List.mem_map.mp (hleft l hl x hx)
      simp [Conn.antiparallel, Conn.parallel, Conn.neg, (h2.shape z hz).2]
    have g2 : (Decomp.rightConns (D.lengths.conns.val l)).all Conn.parallel = true := by
      rw [List.all_eq_true]
      intro x hx
      rw [Decomp.rightConns, h2.topRight l, List.nil_append] at hx
      exact (h2.shape x (hright l hl x hx)).1
    rw [g1, g2]
    rfl
  rw [e1]
  refine checkSeparatrices_ok h2.shape ?_ ?_ ?_
  · exact (List.nodup_append.mp (h2.sources.nodup_iff.mpr ((hv.perm.nodup_iff.mpr hv.nodup).sublist (List.dropLast_sublist _)))).2.1
  · exact (List.nodup_append.mp (h2.targets.nodup_iff.mpr (hv.nodup.sublist (List.dropLast_sublist _)))).2.1
  · refine (flatMap_append_perm' _ _ _).trans ?_
    refine List.perm_append_comm.trans (List.Perm.append ?_ h2.left)
    have e : ∀ l, Decomp.rightConns (D.lengths.conns.val l) = (D.lengths.conns.val l).bottomRight := fun l => by
      rw [Decomp.rightConns, h2.topRight l, List.nil_append]
    simp only [e]
    exact h2.right

/-- **C41** In every reachable state the internal consistency check succeeds. -/
theorem C41_check (H : LawfulLengths O c ε) {L : PPL} (hL : L.Lawful) {E : IET T} {s : σ} (hE : H.Ok E s)
    {D : Decomp σ T} {steps : List DStep} (h : DReach L O E s D steps) : D.check = .ok () :=
  (h.inv hL H (ι := AddMonoidHom.id T) (fun _ _ h => h) hE).check hE.valid

/-! ### C50 -/

theorem headM_ok {l : List Label} (h : l ≠ []) : Decomp.headM l = .ok (l.head h) := by
  cases l with
  | nil => exact absurd rfl h
  | cons a l => rfl

theorem lastM_ok {l : List Label} (h : l ≠ []) : Decomp.lastM l = .ok (l.getLast h) := by
  rw [Decomp.lastM, headM_ok (by simpa using h)]
  simp

theorem headLeft_map (m : ConnMap) (f : Conns → List Conn) {i : ℕ} (t : Bool) {l : List Label} (h : l ≠ []) :
    m.headLeft f (l.map (fun a => ⟨i, a, t⟩)) = f (m.val (l.head h)) := by
  cases l with
  | nil => exact absurd rfl h
  | cons a l => rfl

theorem nodup_sides : ∀ {p : List Side}, (p.filterMap Side.edge?).Nodup → (p.filterMap Side.conn?).Nodup → p.Nodup
  | [], _, _ => List.nodup_nil
  | .edge g :: p, h1, h2 => by
    rw [List.filterMap_cons_some (show Side.edge? (.edge g) = some g from rfl), List.nodup_cons] at h1
    rw [List.filterMap_cons_none rfl] at h2
    rw [List.nodup_cons]
    exact ⟨fun hm => h1.1 (List.mem_filterMap.mpr ⟨_, hm, rfl⟩), nodup_sides h1.2 h2⟩
  | .conn g :: p, h1, h2 => by
    rw [List.filterMap_cons_some (show Side.conn? (.conn g) = some g from rfl), List.nodup_cons] at h2
    rw [List.filterMap_cons_none rfl] at h1
    rw [List.nodup_cons]
    exact ⟨fun hm => h2.1 (List.mem_filterMap.mpr ⟨_, hm, rfl⟩), nodup_sides h1 h2.2⟩

/-- **C50** In every reachable state, `perimeter()` of a component returns; the half edges in it are the ones of the bottom contour from left to
right followed by the ones of the top contour from right to left, the connections in it are the ones left and right of these half
edges, and nothing occurs twice. -/
theorem C50_perimeter (H : LawfulLengths O c ε) {L : PPL} (hL : L.Lawful) {E : IET T} {s : σ} (hE : H.Ok E s)
    {D : Decomp σ T} {steps : List DStep} (h : DReach L O E s D steps) {i : ℕ} (hi : i < D.comps.length) :
    ∃ p top bottom cs, D.perimeter i = .ok p ∧ D.topContour i = .ok top ∧ D.bottomContour i = .ok bottom ∧
      p.filterMap Side.edge? = bottom ++ top.reverse ∧
      (bottom ++ top).mapM (fun h => do return (← D.heLeft h) ++ (← D.heRight h)) = .ok cs ∧
      (p.filterMap Side.conn?).Perm cs.flatten ∧ p.Nodup := by
  have hinv := h.inv hL H (ι := AddMonoidHom.id T) (fun _ _ h => h) hE
  obtain ⟨oc, h1, h2⟩ := hinv.track
  have hkeys : D.lengths.conns.keys = E.top := h2.keys
  obtain ⟨x, hx⟩ : ∃ x, D.comps[i]? = some x := ⟨_, List.getElem?_eq_getElem hi⟩
  have hxm := List.mem_of_getElem? hx
  obtain ⟨-, -, h3⟩ := C35_partition H hL hE h
  have hmem : ∀ a ∈ x.iet.top, a ∈ D.lengths.conns.keys := fun a ha =>
    hkeys ▸ h3.mem_iff.mp (List.mem_append_left _ (List.mem_flatMap.mpr ⟨x, hxm, ha⟩))
  have hv := (hinv.good x hxm).ok.valid
  have hperm : x.iet.bottom.Perm x.iet.top := hv.perm
  have hsw := hinv.swapped x hxm
  have htc : x.topContour = x.iet.top := by simp [Comp.topContour, hsw]
  have hbc : x.bottomContour = x.iet.bottom := by simp [Comp.bottomContour, hsw]
  have hcomp : D.comp i = .ok x := by simp [Decomp.comp, hx]
  have htop : D.topContour i = .ok (x.iet.top.map (fun l => ⟨i, l, true⟩)) := by
    simp only [Decomp.topContour, hcomp, htc, bind, Except.bind, pure, Except.pure]
  have hbot : D.bottomContour i = .ok (x.iet.bottom.map (fun l => ⟨i, l, false⟩)) := by
    simp only [Decomp.bottomContour, hcomp, hbc, bind, Except.bind, pure, Except.pure]
  have hmem' : ∀ a ∈ x.iet.bottom, a ∈ D.lengths.conns.keys := fun a ha => hmem a (hperm.mem_iff.mp ha)
  obtain ⟨r, r1, r2, r3⟩ := horizontalTop_spec (D := D) (x.iet.top.map (fun l => ⟨i, l, true⟩)) true (by
    intro g hg; obtain ⟨a, ha, rfl⟩ := List.mem_map.mp hg; exact ⟨rfl, hmem a ha⟩)
  obtain ⟨r', r1', r2', r3'⟩ := horizontalBottom_spec (D := D) (x.iet.bottom.map (fun l => ⟨i, l, false⟩)) true (by
    intro g hg; obtain ⟨a, ha, rfl⟩ := List.mem_map.mp hg; exact ⟨rfl, hmem' a ha⟩)
  have htn : x.iet.top ≠ [] := hv.ne_nil
  have hbn : x.iet.bottom ≠ [] := fun e => htn (List.Perm.nil_eq (e ▸ hperm)).symm
  set m := D.lengths.conns with hm
  have hleft : D.left i = .ok (((((m.val (x.iet.bottom.head hbn)).bottomLeft ++ (m.val (x.iet.top.head htn)).topLeft).map Side.conn)).reverse) := by
    simp only [Decomp.left, hcomp, htc, hbc, headM_ok htn, headM_ok hbn, connections_ok (hmem _ (List.head_mem htn)),
      connections_ok (hmem' _ (List.head_mem hbn)), bind, Except.bind, pure, Except.pure]
    rfl
  have hright : D.right i = .ok (((m.val (x.iet.bottom.getLast hbn)).bottomRight ++ (m.val (x.iet.top.getLast htn)).topRight).map Side.conn) := by
    simp only [Decomp.right, hcomp, htc, hbc, lastM_ok htn, lastM_ok hbn, connections_ok (hmem _ (List.getLast_mem htn)),
      connections_ok (hmem' _ (List.getLast_mem hbn)), bind, Except.bind, pure, Except.pure]
    rfl
  have hhead : m.headLeft Conns.topLeft (x.iet.top.map (fun l => ⟨i, l, true⟩)) = (m.val (x.iet.top.head htn)).topLeft :=
    headLeft_map _ _ _ htn
  have hhead' : m.headLeft Conns.bottomLeft (x.iet.bottom.map (fun l => ⟨i, l, false⟩)) = (m.val (x.iet.bottom.head hbn)).bottomLeft :=
    headLeft_map _ _ _ hbn
  have hlast : m.lastRight Conns.topRight (x.iet.top.map (fun l => ⟨i, l, true⟩)) = (m.val (x.iet.top.getLast htn)).topRight := by
    simp [ConnMap.lastRight, List.getLast?_eq_some_getLast htn]
  have hlast' : m.lastRight Conns.bottomRight (x.iet.bottom.map (fun l => ⟨i, l, false⟩)) = (m.val (x.iet.bottom.getLast hbn)).bottomRight := by
    simp [ConnMap.lastRight, List.getLast?_eq_some_getLast hbn]
  rw [if_pos rfl, hhead, hlast] at r3
  rw [if_pos rfl, hhead', hlast'] at r3'
  set p : List Side := r' ++ ((m.val (x.iet.bottom.getLast hbn)).bottomRight ++ (m.val (x.iet.top.getLast htn)).topRight).map Side.conn ++
    r.reverse ++ ((((m.val (x.iet.bottom.head hbn)).bottomLeft ++ (m.val (x.iet.top.head htn)).topLeft).map Side.conn)).reverse with hp
  have hedges : p.filterMap Side.edge? = x.iet.bottom.map (fun l => (⟨i, l, false⟩ : HalfEdge)) ++ (x.iet.top.map (fun l => (⟨i, l, true⟩ : HalfEdge))).reverse := by
    rw [hp, ← List.map_reverse]
    simp only [List.filterMap_append, (filterMap_map_conn _).2, List.append_nil, List.filterMap_reverse, r2, r2']
  have hconns : (p.filterMap Side.conn?).Perm ((x.iet.bottom.map (fun l => (⟨i, l, false⟩ : HalfEdge)) ++
      x.iet.top.map (fun l => (⟨i, l, true⟩ : HalfEdge))).map m.around).flatten := by
    rw [hp, ← List.map_reverse, ← List.flatMap_def, List.flatMap_append]
    simp only [List.filterMap_append, (filterMap_map_conn _).1, List.filterMap_reverse]
    rw [List.perm_iff_count] at *
    intro z
    have e1 := r3 z
    have e2 := r3' z
    simp only [List.count_append, List.count_reverse] at *
    omega
  have hnd : p.Nodup := by
    refine nodup_sides ?_ ?_
    · rw [hedges, List.nodup_append]
      refine ⟨?_, ?_, ?_⟩
      · exact (List.nodup_map_iff (fun a b e => by simpa using e)).mpr (hperm.nodup_iff.mpr hv.nodup)
      · rw [List.nodup_reverse]
        exact (List.nodup_map_iff (fun a b e => by simpa using e)).mpr hv.nodup
      · rintro g hg g' hg' rfl
        obtain ⟨a, _, rfl⟩ := List.mem_map.mp hg
        obtain ⟨b, _, e⟩ := List.mem_map.mp (List.mem_reverse.mp hg')
        injection e with _ _ e
        cases e
    · rw [hconns.nodup_iff, ← List.flatMap_def]
      obtain ⟨-, g2, g3⟩ := h.around H hL hE
      have g4 := g2.nodup_iff.mpr g3
      unfold Decomp.halfEdges at g4
      rw [List.flatMap_assoc] at g4
      have := (List.nodup_flatMap.mp g4).1 (x, i) (List.mem_zipIdx_iff_getElem?.mpr hx)
      simp only [htc, hbc] at this
      exact (List.perm_append_comm.flatMap_right _).nodup_iff.mp this
  refine ⟨p, _, _, _, ?_, htop, hbot, hedges, mapM_around ?_, hconns, hnd⟩
  · have hassert : assertM p.Nodup = .ok () := by
      show (if decide p.Nodup = true then (.ok () : M Unit) else .error .assertFailed) = .ok ()
      rw [if_pos (decide_eq_true hnd)]
    simp only [Decomp.perimeter, Decomp.bottom, Decomp.top, htop, hbot, r1, r1', hleft, hright, bind, Except.bind, pure, Except.pure]
    rw [← hp, hassert]
  · intro g hg
    rcases List.mem_append.mp hg with hg | hg
    · obtain ⟨a, ha, rfl⟩ := List.mem_map.mp hg; exact hmem' a ha
    · obtain ⟨a, ha, rfl⟩ := List.mem_map.mp hg; exact hmem a ha

/-- A run that recorded three connections, and the perimeters of its two components at the end. -/
example (L : PPL) : (Decomp.runFrom L (SLengths.ops intArith) Examples.intIET Examples.intState 20 Examples.intCalls).bind (fun r => do
    r.2.check
    return (reported r.1, ← r.2.perimeter 0, ← r.2.perimeter 1)) =
    .ok ([⟨⟨2, true⟩, ⟨1, false⟩⟩, ⟨⟨3, true⟩, ⟨0, false⟩⟩, ⟨⟨1, true⟩, ⟨2, false⟩⟩],
      [.edge ⟨0, 2, false⟩, .conn ⟨⟨2, true⟩, ⟨1, false⟩⟩, .conn ⟨⟨1, true⟩, ⟨2, false⟩⟩, .edge ⟨0, 2, true⟩,
        .conn ⟨⟨1, false⟩, ⟨2, true⟩⟩, .conn ⟨⟨0, false⟩, ⟨3, true⟩⟩],
      [.edge ⟨1, 3, false⟩, .conn ⟨⟨3, true⟩, ⟨0, false⟩⟩, .edge ⟨1, 3, true⟩, .conn ⟨⟨2, false⟩, ⟨1, true⟩⟩]) := rfl

end Verif
