import Verif.Model.PythonViews
import Verif.Props.Boundary
import Verif.Props.History
import Verif.Props.Inject
import Verif.Props.Render

/-!
# C97: what `left()`, `right()`, `top()`, and `bottom()` return in Python
-/

namespace Verif

set_option linter.unusedSectionVars false

variable {σ T ε : Type} [CommRing T] [LinearOrder T] [IsStrictOrderedRing T] {O : LengthsOps σ T} {d : ℕ} {c : T →+ (Fin d → ℚ)}

theorem pyConnections_map (l : List Conn) : pyConnections (l.map .conn) = some l := by
  induction l with
  | nil => rfl
  | cons a l ih =>
    unfold pyConnections at ih ⊢
    simp only [List.map_cons, List.mapM_cons, Side.get0, ih]
    rfl

theorem pyConnections_iff {s : List Side} {l : List Conn} : pyConnections s = some l ↔ s = l.map .conn := by
  constructor
  · induction s generalizing l with
    | nil => intro h; cases h; rfl
    | cons a s ih =>
      intro h
      unfold pyConnections at h ih
      rw [List.mapM_cons] at h
      cases a with
      | edge => cases h
      | conn c =>
        cases hs : List.mapM Side.get0 s with
        | none => simp [Side.get0, hs] at h
        | some l' =>
          simp only [Side.get0, hs, Option.bind_eq_bind, Option.bind_some, Option.pure_def, Option.some.injEq] at h
          rw [← h, ih hs]
          rfl
  · rintro rfl; exact pyConnections_map l

theorem sides_eq {D : Decomp σ T} {i : ℕ} {x : Comp T} (hx : D.comps[i]? = some x) (hsw : x.iet.swapped = false) (hperm : x.iet.bottom.Perm x.iet.top) (hne : x.iet.top ≠ [])
    (hk : ∀ l ∈ x.iet.top, l ∈ D.lengths.conns.keys) :
    ∃ a ∈ D.lengths.conns.keys, ∃ b ∈ D.lengths.conns.keys, ∃ a' ∈ D.lengths.conns.keys, ∃ b' ∈ D.lengths.conns.keys,
      D.left i = .ok ((((D.lengths.conns.val b).bottomLeft ++ (D.lengths.conns.val a).topLeft).reverse).map Side.conn) ∧
      D.right i = .ok (((D.lengths.conns.val b').bottomRight ++ (D.lengths.conns.val a').topRight).map Side.conn) := by
  have hk' : ∀ l ∈ x.iet.bottom, l ∈ D.lengths.conns.keys := fun a ha => hk a (hperm.mem_iff.mp ha)
  have htc : x.topContour = x.iet.top := by simp [Comp.topContour, hsw]
  have hbc : x.bottomContour = x.iet.bottom := by simp [Comp.bottomContour, hsw]
  have hcomp : D.comp i = .ok x := by simp [Decomp.comp, hx]
  have hbn : x.iet.bottom ≠ [] := fun e => hne (List.Perm.nil_eq (e ▸ hperm)).symm
  refine ⟨x.iet.top.head hne, hk _ (List.head_mem _), x.iet.bottom.head hbn, hk' _ (List.head_mem _), x.iet.top.getLast hne, hk _ (List.getLast_mem _),
    x.iet.bottom.getLast hbn, hk' _ (List.getLast_mem _), ?_, ?_⟩
  · rw [List.map_reverse]
    simp only [Decomp.left, hcomp, htc, hbc, headM_ok hne, headM_ok hbn, connections_ok (hk _ (List.head_mem hne)),
      connections_ok (hk' _ (List.head_mem hbn)), bind, Except.bind, pure, Except.pure]
  · simp only [Decomp.right, hcomp, htc, hbc, lastM_ok hne, lastM_ok hbn, connections_ok (hk _ (List.getLast_mem hne)),
      connections_ok (hk' _ (List.getLast_mem hbn)), bind, Except.bind, pure, Except.pure]

/-- **C97** Whatever has been called on a decomposition, including `inject()`, `left()` and `right()` of any component return in Python.  They contain everything that they contain
in C++, in the same order. -/
theorem C97_sides (H : LawfulLengths O c ε) {L : PPL} (hL : L.Lawful) {E : IET T} {s : σ} (hE : H.Ok E s)
    {ok : Decomp σ T → HalfEdge → List (Label × Label) → List (Label × Label) → Prop}
    {D : Decomp σ T} {calls : List DCall} {events : List DEvent} (h : IReach L O E s ok D calls events) {i : ℕ} (hi : i < D.comps.length) :
    ∃ l r, D.pyLeft i = .ok (some l) ∧ D.pyRight i = .ok (some r) ∧ D.left i = .ok (l.map .conn) ∧ D.right i = .ok (r.map .conn) := by
  obtain ⟨D₀, events₀, h1, h2, h3⟩ := h.alike H hL hE
  have hinv := h1.dreach.inv hL H (ι := AddMonoidHom.id T) (fun _ _ h => h) hE
  obtain ⟨x, hx⟩ : ∃ x, D.comps[i]? = some x := ⟨_, List.getElem?_eq_getElem hi⟩
  have hxm := List.mem_of_getElem? hx
  have hx₀ : x ∈ D₀.comps := by rw [← h2.comps]; exact hxm
  have hv := (hinv.good x hx₀).ok.valid
  obtain ⟨a, -, b, -, a', -, b', -, hleft, hright⟩ := sides_eq hx (hinv.swapped x hx₀) hv.perm hv.ne_nil (by
    intro l hl
    obtain ⟨oc, -, ht⟩ := hinv.track
    have hkeys : D₀.lengths.conns.keys = E.top := ht.keys
    rw [h2.lengths.keys, hkeys]
    obtain ⟨-, -, hp⟩ := C35_partition H hL hE h1.dreach
    exact hp.mem_iff.mp (List.mem_append_left _ (List.mem_flatMap.mpr ⟨x, hx₀, hl⟩)))
  refine ⟨_, _, ?_, ?_, hleft, hright⟩
  · simp only [Decomp.pyLeft, hleft, bind, Except.bind, pure, Except.pure, pyConnections_map]
  · simp only [Decomp.pyRight, hright, bind, Except.bind, pure, Except.pure, pyConnections_map]

theorem horizontalTop_ends {D : Decomp σ T} : ∀ {l : List HalfEdge} {p : List Side}, D.horizontalTop true l = .ok p → p.head? = l.head?.map .edge
  | [], _, h => by cases h; rfl
  | g :: l, p, h => by
    simp only [Decomp.horizontalTop, bind, Except.bind, pure, Except.pure] at h
    split at h
    · cases h
    · split at h
      · cases h
      · cases h; rfl

theorem horizontalTop_last {D : Decomp σ T} : ∀ {l : List HalfEdge} {b : Bool} {p : List Side}, D.horizontalTop b l = .ok p → p.getLast? = l.getLast?.map .edge
  | [], _, _, h => by cases h; rfl
  | [g], b, p, h => by
    simp only [Decomp.horizontalTop, bind, Except.bind, pure, Except.pure] at h
    split at h
    · cases h
    · cases h; simp
  | g :: g' :: l, b, p, h => by
    rw [Decomp.horizontalTop] at h
    simp only [bind, Except.bind, pure, Except.pure] at h
    split at h
    · cases h
    · split at h
      · cases h
      · rename_i q hq
        have ih := horizontalTop_last hq
        cases h
        rw [List.getLast?_append, ih]
        obtain ⟨z, hz⟩ : ∃ z, (g' :: l).getLast? = some z := ⟨_, List.getLast?_eq_some_getLast (by simp)⟩
        rw [List.getLast?_cons_cons, hz]
        rfl

theorem horizontalBottom_ends {D : Decomp σ T} : ∀ {l : List HalfEdge} {p : List Side}, D.horizontalBottom true l = .ok p → p.head? = l.head?.map .edge
  | [], _, h => by cases h; rfl
  | g :: l, p, h => by
    simp only [Decomp.horizontalBottom, bind, Except.bind, pure, Except.pure] at h
    split at h
    · cases h
    · split at h
      · cases h
      · cases h; rfl

theorem horizontalBottom_last {D : Decomp σ T} : ∀ {l : List HalfEdge} {b : Bool} {p : List Side}, D.horizontalBottom b l = .ok p → p.getLast? = l.getLast?.map .edge
  | [], _, _, h => by cases h; rfl
  | [g], b, p, h => by
    simp only [Decomp.horizontalBottom, bind, Except.bind, pure, Except.pure] at h
    split at h
    · cases h
    · cases h; simp
  | g :: g' :: l, b, p, h => by
    rw [Decomp.horizontalBottom] at h
    simp only [bind, Except.bind, pure, Except.pure] at h
    split at h
    · cases h
    · split at h
      · cases h
      · rename_i q hq
        have ih := horizontalBottom_last hq
        cases h
        rw [List.getLast?_append, ih]
        obtain ⟨z, hz⟩ : ∃ z, (g' :: l).getLast? = some z := ⟨_, List.getLast?_eq_some_getLast (by simp)⟩
        rw [List.getLast?_cons_cons, hz]
        rfl

/-- **C97** They are what the perimeter contains between the contours: `right()` is what comes between the last half edges of the bottom and of the top, `left()` is what comes between
their first half edges.  Everything in `left()` goes from the top to the bottom, everything in `right()` goes from the bottom to the top. -/
theorem C97_between (H : LawfulLengths O c ε) {L : PPL} (hL : L.Lawful) {E : IET T} {s : σ} (hE : H.Ok E s)
    {D : Decomp σ T} {steps : List DStep} (h : DReach L O E s D steps) {i : ℕ} (hi : i < D.comps.length) :
    ∃ p b t l r cb ct, D.perimeter i = .ok p ∧ D.pyLeft i = .ok (some l) ∧ D.pyRight i = .ok (some r) ∧
      D.bottomContour i = .ok cb ∧ D.topContour i = .ok ct ∧ p = b ++ r.map .conn ++ t ++ l.map .conn ∧
      b.head? = cb.head?.map .edge ∧ b.getLast? = cb.getLast?.map .edge ∧ t.head? = ct.getLast?.map .edge ∧ t.getLast? = ct.head?.map .edge ∧
      (∀ x ∈ l, x.antiparallel = true) ∧ ∀ x ∈ r, x.parallel = true := by
  obtain ⟨p, ct, cb, -, h1, h2, h3, -⟩ := C50_perimeter H hL hE h hi
  have h0 := h1
  simp only [Decomp.perimeter, bind, Except.bind, pure, Except.pure] at h0
  cases hb : D.bottom i with
  | error => simp [hb] at h0
  | ok b =>
  cases hr : D.right i with
  | error => simp [hb, hr] at h0
  | ok r =>
  cases ht : D.top i with
  | error => simp [hb, hr, ht] at h0
  | ok t =>
  cases hl : D.left i with
  | error => simp [hb, hr, ht, hl] at h0
  | ok l =>
  simp only [hb, hr, ht, hl] at h0
  split at h0
  · cases h0
  cases h0
  have hinv := h.inv hL H (ι := AddMonoidHom.id T) (fun _ _ h => h) hE
  obtain ⟨oc, e1, tr⟩ := hinv.track
  have hkeys : D.lengths.conns.keys = E.top := tr.keys
  obtain ⟨x, hx⟩ : ∃ x, D.comps[i]? = some x := ⟨_, List.getElem?_eq_getElem hi⟩
  have hxm := List.mem_of_getElem? hx
  have hv := (hinv.good x hxm).ok.valid
  obtain ⟨a, ka, a₂, ka₂, a', ka', b', kb', hleft, hright⟩ := sides_eq hx (hinv.swapped x hxm) hv.perm hv.ne_nil (by
    intro l hl
    rw [hkeys]
    obtain ⟨-, -, hp⟩ := C35_partition H hL hE h
    exact hp.mem_iff.mp (List.mem_append_left _ (List.mem_flatMap.mpr ⟨x, hxm, hl⟩)))
  have hL' : ∀ u ∈ D.lengths.conns.keys, ∀ y, y ∈ (D.lengths.conns.val u).bottomLeft ∨ y ∈ (D.lengths.conns.val u).topLeft → y.antiparallel = true := by
    intro u hu y hy
    have : y ∈ leftOf (D.lengths.conns.val u) := by unfold leftOf; simpa [or_comm] using hy
    obtain ⟨z, hz, rfl⟩ := List.mem_map.mp (tr.left.mem_iff.mp (List.mem_flatMap.mpr ⟨u, (hkeys ▸ hu : u ∈ E.top), this⟩))
    simp [Conn.antiparallel, Conn.parallel, Conn.neg, (tr.shape z hz).2]
  have hR' : ∀ u ∈ D.lengths.conns.keys, ∀ y, y ∈ (D.lengths.conns.val u).bottomRight ∨ y ∈ (D.lengths.conns.val u).topRight → y.parallel = true := by
    intro u hu y hy
    rw [tr.topRight u] at hy
    exact (tr.shape y (tr.right.mem_iff.mp (List.mem_flatMap.mpr ⟨u, (hkeys ▸ hu : u ∈ E.top), by simpa using hy⟩))).1
  have el := Except.ok.inj (hl.symm.trans hleft)
  have er := Except.ok.inj (hr.symm.trans hright)
  refine ⟨_, b, t, _, _, cb, ct, h1, ?_, ?_, h3, h2, by rw [el, er], ?_, ?_, ?_, ?_, ?_, ?_⟩
  · simp only [Decomp.pyLeft, hleft, bind, Except.bind, pure, Except.pure, pyConnections_map]
  · simp only [Decomp.pyRight, hright, bind, Except.bind, pure, Except.pure, pyConnections_map]
  · simp only [Decomp.bottom, h3, bind, Except.bind] at hb
    exact horizontalBottom_ends hb
  · simp only [Decomp.bottom, h3, bind, Except.bind] at hb
    exact horizontalBottom_last hb
  · simp only [Decomp.top, h2, bind, Except.bind, pure, Except.pure] at ht
    split at ht
    · cases ht
    · rename_i q hq
      cases ht
      rw [List.head?_reverse]
      exact horizontalTop_last hq
  · simp only [Decomp.top, h2, bind, Except.bind, pure, Except.pure] at ht
    split at ht
    · cases ht
    · rename_i q hq
      cases ht
      rw [List.getLast?_reverse]
      exact horizontalTop_ends hq
  · intro y hy
    rcases List.mem_append.mp (List.mem_reverse.mp hy) with hy | hy
    · exact hL' _ ka₂ y (.inl hy)
    · exact hL' _ ka y (.inr hy)
  · intro y hy
    rcases List.mem_append.mp hy with hy | hy
    · exact hR' _ kb' y (.inl hy)
    · exact hR' _ ka' y (.inr hy)

/-- **C97** Conversely, the same wrapper could not be used for `top()`, `bottom()`, or `perimeter()` of a component, it throws for everything that contains a half edge. -/
theorem C97_halfEdge {s : List Side} {g : HalfEdge} (h : .edge g ∈ s) : pyConnections s = none := by
  cases e : pyConnections s with
  | none => rfl
  | some l =>
    rw [pyConnections_iff.mp e] at h
    obtain ⟨_, _, h⟩ := List.mem_map.mp h
    cases h

/-! ### Names of labels -/

/-- **C97** In Python the labels in `top()` and in `bottom()` of an IET are printed as the same names, each label has its own name which consists of letters.  Different IETs that share
lengths have different labels and different names. -/
theorem C97_names (H : LawfulLengths O c ε) {L : PPL} (hL : L.Lawful) {w : World σ T} (h : Reachable H L w) :
    (∀ E ∈ w.pieces, (E.pyTop.map Prod.fst = E.top ∧ E.pyBottom.map Prod.fst = E.bottom) ∧ E.pyBottom.Perm E.pyTop ∧ (E.pyTop.map Prod.snd).Nodup ∧
      ∀ x ∈ E.pyTop, x.2 ≠ [] ∧ ∀ ch ∈ x.2, ch.isAlpha = true) ∧
    w.pieces.Pairwise (fun E F => ∀ n ∈ E.pyTop.map Prod.snd, n ∉ F.pyTop.map Prod.snd) := by
  obtain ⟨h1, h2⟩ := C03_valid H hL h
  refine ⟨fun E hE => ⟨⟨by simp [IET.pyTop, nameLabels, Function.comp_def], by simp [IET.pyBottom, nameLabels, Function.comp_def]⟩, ?_, ?_, ?_⟩, ?_⟩
  · exact (h1 E hE).1.perm.map _
  · have := (h1 E hE).1.nodup
    simp only [IET.pyTop, nameLabels, List.map_map]
    exact this.map (fun a b e => (C29_render_injective a b).mp e)
  · intro x hx
    obtain ⟨l, -, rfl⟩ := List.mem_map.mp hx
    exact C29_render_letters l
  · refine h2.imp (fun {E F} hEF n hn hn' => ?_)
    simp only [IET.pyTop, nameLabels, List.map_map, List.mem_map, Function.comp] at hn hn'
    obtain ⟨a, ha, rfl⟩ := hn
    obtain ⟨b, hb, e⟩ := hn'
    rw [(C29_render_injective b a).mp e] at hb
    exact hEF a ha hb

theorem Effect.labels_subset {H : LawfulLengths O c ε} {sw : Bool} {E E₁ : IET T} {s s₁ : σ} {new : List (IET T)} (hE : (H.abs E s).Valid)
    (h : Effect sw (H.abs E s) (new.map (fun R => H.abs R s₁)) (H.abs E₁ s₁)) :
    (∀ a ∈ E₁.top, a ∈ E.top) ∧ ∀ R ∈ new, ∀ a ∈ R.top, a ∈ E.top := by
  have key : ∀ {A B : AIET T} {N : List (AIET T)}, A.Valid → Effect sw A N B → (∀ a ∈ B.top, a ∈ A.top) ∧ ∀ R ∈ N, ∀ a ∈ R.top, a ∈ A.top := by
    intro A B N hA h
    cases h with
    | steps h => exact ⟨fun a ha => h.top_perm.mem_iff.mp ha, by simp⟩
    | swap => exact ⟨fun a ha => hA.perm.mem_iff.mp ha, by simp⟩
    | cut h hc =>
      rw [hc.left_eq, hc.right_eq]
      refine ⟨fun a ha => h.top_perm.mem_iff.mp (List.mem_of_mem_take ha), fun R hR a ha => ?_⟩
      rw [List.mem_singleton] at hR
      subst hR
      exact h.top_perm.mem_iff.mp (List.mem_of_mem_drop ha)
    | merge h hm =>
      refine ⟨fun a ha => h.top_perm.mem_iff.mp ?_, by simp⟩
      cases hm
      exact List.mem_cons_of_mem _ ha
  obtain ⟨h1, h2⟩ := key hE h
  exact ⟨h1, fun R hR => h2 _ (List.mem_map.mpr ⟨R, hR, rfl⟩)⟩

/-- **C97** The names of labels never change: whatever is called, each label that is left has the name that it had before. -/
theorem C97_names_stay (H : LawfulLengths O c ε) {L : PPL} (hL : L.Lawful) {w w' : World σ T} (h : Reachable H L w) {ops : List Op} (hr : Run L O ops w w')
    {E' : IET T} (hE' : E' ∈ w'.pieces) {l : Label} {n : List Char} (hn : (l, n) ∈ E'.pyTop) : ∃ E ∈ w.pieces, (l, n) ∈ E.pyTop := by
  have key : ∀ l ∈ E'.top, ∃ E ∈ w.pieces, l ∈ E.top := by
    clear hn
    induction hr with
    | nil => exact fun l hl => ⟨E', hE', hl⟩
    | @cons w w₁ w₂ ops fuel op he _ ih =>
      have hs := h.exec hL he
      intro l hl
      obtain ⟨F, hF, hlF⟩ := ih (.step fuel op h he) hE' l hl
      cases hE : w.pieces[op.index]? with
      | none => rw [hs.skip hE] at hF; exact ⟨F, hF, hlF⟩
      | some E =>
        have hEm := List.mem_of_getElem? hE
        obtain ⟨new, E₁, e1, e2, -, -⟩ := hs.effect E hE
        have hv := (h.good hL hEm).ok.valid
        have sub : (∀ a ∈ E₁.top, a ∈ E.top) ∧ ∀ R ∈ new, ∀ a ∈ R.top, a ∈ E.top := e2.labels_subset hv
        rw [e1] at hF
        rcases List.mem_append.mp hF with hF | hF
        · rcases List.mem_or_eq_of_mem_set hF with hF | rfl
          · exact ⟨F, hF, hlF⟩
          · exact ⟨E, hEm, sub.1 l hlF⟩
        · exact ⟨E, hEm, sub.2 F hF l hlF⟩
  obtain ⟨l', hl', e⟩ := List.mem_map.mp hn
  simp only [Prod.mk.injEq] at e
  obtain ⟨rfl, rfl⟩ := e
  obtain ⟨E, hE, hlE⟩ := key _ hl'
  exact ⟨E, hE, List.mem_map.mpr ⟨_, hlE, rfl⟩⟩

/-! ### Concrete cases -/

/-- What `left()` and `right()` of the two components of a decomposition return in Python. -/
example (L : PPL) : (Decomp.runFrom L (SLengths.ops intArith) Examples.intIET Examples.intState 20 Examples.intCalls).bind (fun r => do
    return [← r.2.pyLeft 0, ← r.2.pyRight 0, ← r.2.pyLeft 1, ← r.2.pyRight 1]) =
    .ok [some [⟨⟨1, false⟩, ⟨2, true⟩⟩, ⟨⟨0, false⟩, ⟨3, true⟩⟩], some [⟨⟨2, true⟩, ⟨1, false⟩⟩, ⟨⟨1, true⟩, ⟨2, false⟩⟩], some [⟨⟨2, false⟩, ⟨1, true⟩⟩],
      some [⟨⟨3, true⟩, ⟨0, false⟩⟩]] := rfl

/-- The names of the labels in `top()` and `bottom()` of an IET. -/
example : (IET.fresh [0, 51, 52] [52, 0, 51] : IET ℤ).pyTop = [(0, ['a']), (51, ['Z']), (52, ['a', 'b'])] ∧
    (IET.fresh [0, 51, 52] [52, 0, 51] : IET ℤ).pyBottom = [(52, ['a', 'b']), (0, ['a']), (51, ['Z'])] := by
  simp [IET.pyTop, IET.pyBottom, IET.fresh, nameLabels, render, renderRest_zero, renderRest_pos, letter]

/-- A world as in `C97_names`. -/
example : Reachable Examples.hQ2 PPL.ideal ⟨[Examples.redIET], Examples.redState⟩ := Examples.sample_reachable _ _ Examples.red_ok

/-- The wrapper throws for the perimeter of the first of these components. -/
example : pyConnections [.edge ⟨0, 2, false⟩, .conn ⟨⟨2, true⟩, ⟨1, false⟩⟩] = none := C97_halfEdge (g := ⟨0, 2, false⟩) (by simp)

end Verif
