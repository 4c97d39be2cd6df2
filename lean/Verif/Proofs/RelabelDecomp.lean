import Verif.Proofs.Relabel
import Verif.Model.Decomposition

/-!
# Renaming labels in a decomposition
-/

namespace Verif

set_option linter.unusedSectionVars false

open Relator

/-- The same separatrix for labels with other names. -/
structure Sep.Rel (Q : Label → Label → Prop) (x y : Sep) : Prop where
  label : Q x.label y.label
  parallel : x.parallel = y.parallel

/-- The same connection for labels with other names. -/
structure Conn.Rel (Q : Label → Label → Prop) (x y : Conn) : Prop where
  source : Sep.Rel Q x.source y.source
  target : Sep.Rel Q x.target y.target

/-- The same connections at a label. -/
structure Conns.Rel (Q : Label → Label → Prop) (x y : Conns) : Prop where
  topLeft : List.Forall₂ (Conn.Rel Q) x.topLeft y.topLeft
  topRight : List.Forall₂ (Conn.Rel Q) x.topRight y.topRight
  bottomLeft : List.Forall₂ (Conn.Rel Q) x.bottomLeft y.bottomLeft
  bottomRight : List.Forall₂ (Conn.Rel Q) x.bottomRight y.bottomRight

/-- The same connections at all labels. -/
structure ConnMap.Rel (Q : Label → Label → Prop) (x y : ConnMap) : Prop where
  keys : List.Forall₂ Q x.keys y.keys
  val : ∀ a b, Q a b → Conns.Rel Q (x.val a) (y.val b)

/-- The same half edge for labels with other names. -/
structure HalfEdge.Rel (Q : Label → Label → Prop) (x y : HalfEdge) : Prop where
  comp : x.comp = y.comp
  label : Q x.label y.label
  top : x.top = y.top

/-- The same half edge or connection for labels with other names. -/
inductive Side.Rel (Q : Label → Label → Prop) : Side → Side → Prop
  | edge {x y : HalfEdge} : HalfEdge.Rel Q x y → Side.Rel Q (.edge x) (.edge y)
  | conn {x y : Conn} : Conn.Rel Q x y → Side.Rel Q (.conn x) (.conn y)

variable {σ σ' T : Type} [CommRing T] [LinearOrder T] [IsStrictOrderedRing T] {O : LengthsOps σ T} {O' : LengthsOps σ' T} {Q : Label → Label → Prop}
  {R : σ → σ' → Prop}

/-- The same lengths with connections for labels with other names. -/
structure LWC.Rel (Q : Label → Label → Prop) (R : σ → σ' → Prop) (x : LWC σ) (y : LWC σ') : Prop where
  inner : R x.inner y.inner
  stack : List.Forall₂ Q x.stack y.stack
  conns : ConnMap.Rel Q x.conns y.conns
  others : List.Forall₂ (Ctx.Rel Q) x.others y.others

theorem Sep.Rel.biUnique (hQ : BiUnique Q) : BiUnique (Sep.Rel Q) := by
  constructor
  · rintro ⟨a, p⟩ ⟨b, q⟩ ⟨c, r⟩ ⟨h1, h2⟩ ⟨h3, h4⟩
    simp only at h1 h2 h3 h4
    rw [hQ.1 h1 h3, h2, h4]
  · rintro ⟨a, p⟩ ⟨b, q⟩ ⟨c, r⟩ ⟨h1, h2⟩ ⟨h3, h4⟩
    simp only at h1 h2 h3 h4
    rw [hQ.2 h1 h3, ← h2, ← h4]

theorem Conn.Rel.biUnique (hQ : BiUnique Q) : BiUnique (Conn.Rel Q) := by
  have hS := Sep.Rel.biUnique hQ
  constructor
  · rintro ⟨a, p⟩ ⟨b, q⟩ ⟨c, r⟩ ⟨h1, h2⟩ ⟨h3, h4⟩
    simp only at h1 h2 h3 h4
    rw [hS.1 h1 h3, hS.1 h2 h4]
  · rintro ⟨a, p⟩ ⟨b, q⟩ ⟨c, r⟩ ⟨h1, h2⟩ ⟨h3, h4⟩
    simp only at h1 h2 h3 h4
    rw [hS.2 h1 h3, hS.2 h2 h4]

theorem HalfEdge.Rel.biUnique (hQ : BiUnique Q) : BiUnique (HalfEdge.Rel Q) := by
  constructor
  · rintro ⟨a, p, x⟩ ⟨b, q, y⟩ ⟨c, r, z⟩ ⟨h1, h2, h3⟩ ⟨h4, h5, h6⟩
    simp only at h1 h2 h3 h4 h5 h6
    rw [hQ.1 h2 h5, h1, h3, h4, h6]
  · rintro ⟨a, p, x⟩ ⟨b, q, y⟩ ⟨c, r, z⟩ ⟨h1, h2, h3⟩ ⟨h4, h5, h6⟩
    simp only at h1 h2 h3 h4 h5 h6
    rw [hQ.2 h2 h5, ← h1, ← h3, ← h4, ← h6]

theorem Side.Rel.biUnique (hQ : BiUnique Q) : BiUnique (Side.Rel Q) := by
  have hC := Conn.Rel.biUnique hQ
  have hH := HalfEdge.Rel.biUnique hQ
  constructor
  · intro a c b h1 h2
    cases h1 with
    | edge h1 => cases h2 with
      | edge h2 => rw [hH.1 h1 h2]
    | conn h1 => cases h2 with
      | conn h2 => rw [hC.1 h1 h2]
  · intro a b c h1 h2
    cases h1 with
    | edge h1 => cases h2 with
      | edge h2 => rw [hH.2 h1 h2]
    | conn h1 => cases h2 with
      | conn h2 => rw [hC.2 h1 h2]

section

variable (hQ : BiUnique Q)

theorem Conn.Rel.neg {x y : Conn} (h : Conn.Rel Q x y) : Conn.Rel Q x.neg y.neg := ⟨h.target, h.source⟩

theorem Conn.Rel.parallel {x y : Conn} (h : Conn.Rel Q x y) : x.parallel = y.parallel := h.source.parallel

theorem Conns.Rel.empty : Conns.Rel Q {} {} := ⟨.nil, .nil, .nil, .nil⟩

include hQ in
theorem ConnMap.Rel.at' {x y : ConnMap} (h : ConnMap.Rel Q x y) {a b : Label} (hab : Q a b) : RelM (Conns.Rel Q) (x.at' a) (y.at' b) := by
  unfold ConnMap.at'
  exact RelM.ite (forall₂_mem hQ hab h.keys) (fun _ _ => h.val a b hab) (fun _ _ => RelM.error _)

include hQ in
theorem ConnMap.Rel.set {x y : ConnMap} (h : ConnMap.Rel Q x y) {a b : Label} (hab : Q a b) {u v : Conns} (huv : Conns.Rel Q u v) :
    ConnMap.Rel Q (x.set a u) (y.set b v) := by
  refine ⟨h.keys, fun a' b' hab' => ?_⟩
  simp only [ConnMap.set]
  by_cases e : a' = a
  · rw [if_pos e, if_pos ((eq_iff_of_biUnique hQ hab' hab).1 e)]; exact huv
  · rw [if_neg e, if_neg (fun q => e ((eq_iff_of_biUnique hQ hab' hab).2 q))]; exact h.val a' b' hab'

include hQ in
theorem ConnMap.Rel.update {x y : ConnMap} (h : ConnMap.Rel Q x y) {a b : Label} (hab : Q a b) {f g : Conns → Conns}
    (hfg : ∀ u v, Conns.Rel Q u v → Conns.Rel Q (f u) (g v)) : RelM (ConnMap.Rel Q) (x.update a f) (y.update b g) := by
  unfold ConnMap.update
  exact (h.at' hQ hab).bind (fun u v huv => h.set hQ hab (hfg u v huv))

include hQ in
theorem minuendOnTop_rel {l l' : List Ctx} (hl : List.Forall₂ (Ctx.Rel Q) l l') {a b : Label} (hab : Q a b) :
    LWC.minuendOnTop l a = LWC.minuendOnTop l' b := by
  unfold LWC.minuendOnTop
  induction hl with
  | nil => rfl
  | @cons c d l l' h1 h2 ih =>
    rw [List.any_cons, List.any_cons, ih, h1.swapped]
    have : decide (c.top.head? = some a) = decide (d.top.head? = some b) := by
      have := forall₂_head? h1.top
      generalize c.top.head? = x, d.top.head? = y at this
      cases this with
      | none => simp
      | some h => simp only [Option.some.injEq, eq_iff_of_biUnique hQ h hab]
    rw [this]

include hQ in
theorem splice_rel (onTop : Bool) {a b a' b' : Label} (hab : Q a b) (hab' : Q a' b') {x y : ConnMap} (h : ConnMap.Rel Q x y) :
    ConnMap.Rel Q (LWC.splice onTop a a' x) (LWC.splice onTop b b' y) := by
  unfold LWC.splice
  have h1 := h.val a b hab
  have h2 := h.val a' b' hab'
  cases onTop with
  | true =>
    rw [if_pos rfl, if_pos rfl]
    refine ConnMap.Rel.set hQ (ConnMap.Rel.set hQ h hab ?_) hab' ?_
    · exact ⟨.nil, h1.topRight, .nil, h1.bottomRight⟩
    · exact ⟨h2.topLeft, h2.topRight, forall₂_append (forall₂_append h2.bottomLeft h1.topLeft) h1.bottomLeft, h2.bottomRight⟩
  | false =>
    rw [if_neg (by decide), if_neg (by decide)]
    refine ConnMap.Rel.set hQ (ConnMap.Rel.set hQ h hab ?_) hab' ?_
    · exact ⟨.nil, h1.topRight, .nil, h1.bottomRight⟩
    · exact ⟨forall₂_append h1.topLeft (forall₂_append h1.bottomLeft h2.topLeft), h2.topRight, h2.bottomLeft, h2.bottomRight⟩

include hQ in
theorem subtractConns_rel {l l' : List Ctx} (hl : List.Forall₂ (Ctx.Rel Q) l l') {a b a' b' : Label} (hab : Q a b) (hab' : Q a' b') {x y : ConnMap}
    (h : ConnMap.Rel Q x y) : RelM (ConnMap.Rel Q) (LWC.subtractConns l a a' x) (LWC.subtractConns l' b b' y) := by
  unfold LWC.subtractConns
  refine (h.at' hQ hab').bind (fun _ _ _ => ?_)
  refine (h.at' hQ hab).bind (fun _ _ _ => ?_)
  refine RelM.ite (eq_iff_of_biUnique hQ hab hab') (fun _ _ => RelM.error _) (fun _ _ => ?_)
  rw [minuendOnTop_rel hQ hl hab]
  exact splice_rel hQ _ hab hab' h

include hQ in
theorem LWC.opsRenamed (hO : OpsRenamed Q R O O') : OpsRenamed Q (LWC.Rel Q R) (LWC.ops O) (LWC.ops O') where
  push {a b s t} hab h := by
    simp only [LWC.ops, LWC.push]
    refine (RelM.assertM ?_).bind (fun _ _ _ => ?_)
    · rw [decide_eq_decide, not_iff_not]; exact forall₂_mem hQ hab h.stack
    · exact (hO.push hab h.inner).bind (fun u v huv => ⟨huv, forall₂_append h.stack (.cons hab .nil), h.conns, h.others⟩)
  pop {s t} h := by
    simp only [LWC.ops, LWC.pop]
    refine (RelM.assertM ?_).bind (fun _ _ _ => ?_)
    · rw [decide_eq_decide, ne_eq, ne_eq, not_iff_not]; exact forall₂_nil_iff h.stack
    · exact (hO.pop h.inner).bind (fun u v huv => ⟨huv, forall₂_dropLast h.stack, h.conns, h.others⟩)
  subtract {x y a b s t} hx hab h := by
    simp only [LWC.ops, LWC.subtract]
    have hst := h.stack
    generalize s.stack = l, t.stack = l' at hst
    cases hst with
    | nil => exact h
    | cons h1 h2 =>
      refine (hO.subtract hx hab h.inner).bind (fun u v huv => ?_)
      exact (subtractConns_rel hQ (.cons hx h.others) hab h1 h.conns).bind (fun p q hpq => ⟨huv, .nil, hpq, h.others⟩)
  subtractRepeated {x y a b s t} hx hab h := by
    simp only [LWC.ops, LWC.subtractRepeated]
    have hst := h.stack
    generalize s.stack = l, t.stack = l' at hst
    cases hst with
    | nil => exact RelM.error _
    | cons h1 h2 =>
      refine (hO.subtractRepeated hx hab h.inner).bind ?_
      rintro ⟨u, s'⟩ ⟨v, t'⟩ ⟨h3, h4⟩
      exact (subtractConns_rel hQ (.cons hx h.others) hab h1 h.conns).bind (fun p q hpq => ⟨h3, h4, .nil, hpq, h.others⟩)
  coefficients hl h := hO.coefficients hl h.inner
  cmp hab h := hO.cmp hab h.inner
  cmp2 hab hab' h := hO.cmp2 hab hab' h.inner
  get hab h := hO.get hab h.inner
  forget h := hO.forget h.inner

end

/-! ### Decompositions -/

/-- The same component for labels with other names. -/
structure Comp.Rel (Q : Label → Label → Prop) (x y : Comp T) : Prop where
  iet : IET.Rel Q x.iet y.iet
  cylinder : x.cylinder = y.cylinder
  withoutPeriodicTrajectory : x.withoutPeriodicTrajectory = y.withoutPeriodicTrajectory
  keane : x.keane = y.keane

/-- The same decomposition for labels with other names. -/
structure Decomp.Rel (Q : Label → Label → Prop) (R : σ → σ' → Prop) (D : Decomp σ T) (D' : Decomp σ' T) : Prop where
  comps : List.Forall₂ (Comp.Rel Q) D.comps D'.comps
  lengths : LWC.Rel Q R D.lengths D'.lengths

/-- The same report for labels with other names. -/
structure DStep.Rel (Q : Label → Label → Prop) (x y : DStep) : Prop where
  result : x.result = y.result
  connection : OptRel (Conn.Rel Q) x.connection y.connection
  equivalent : OptRel (List.Forall₂ (Side.Rel Q)) x.equivalent y.equivalent
  additional : x.additional = y.additional

theorem forall₂_map {α β γ δ : Type} {P : α → β → Prop} {S : γ → δ → Prop} {f : α → γ} {g : β → δ} (hfg : ∀ a b, P a b → S (f a) (g b))
    {l : List α} {l' : List β} (h : List.Forall₂ P l l') : List.Forall₂ S (l.map f) (l'.map g) := by
  induction h with
  | nil => exact .nil
  | cons h1 _ ih => exact .cons (hfg _ _ h1) ih

theorem forall₂_flatMap {α β γ δ : Type} {P : α → β → Prop} {S : γ → δ → Prop} {f : α → List γ} {g : β → List δ}
    (hfg : ∀ a b, P a b → List.Forall₂ S (f a) (g b)) {l : List α} {l' : List β} (h : List.Forall₂ P l l') :
    List.Forall₂ S (l.flatMap f) (l'.flatMap g) := by
  induction h with
  | nil => exact .nil
  | cons h1 _ ih => rw [List.flatMap_cons, List.flatMap_cons]; exact forall₂_append (hfg _ _ h1) ih

theorem forall₂_set' {α β : Type} {P : α → β → Prop} {l : List α} {l' : List β} (h : List.Forall₂ P l l') : ∀ (i : ℕ) {a : α} {b : β}, P a b →
    List.Forall₂ P (l.set i a) (l'.set i b) := by
  induction h with
  | nil => intro i a b _; exact .nil
  | cons h1 h2 ih =>
    intro i a b hab
    cases i with
    | zero => exact .cons hab h2
    | succ i => exact .cons h1 (ih i hab)

theorem forall₂_eraseIdx_rename {α β : Type} {P : α → β → Prop} {l : List α} {l' : List β} (h : List.Forall₂ P l l') : ∀ (i : ℕ),
    List.Forall₂ P (l.eraseIdx i) (l'.eraseIdx i) := by
  induction h with
  | nil => intro i; exact .nil
  | cons h1 h2 ih =>
    intro i
    cases i with
    | zero => exact h2
    | succ i => exact .cons h1 (ih i)

theorem forall₂_all_rename {α β : Type} {P : α → β → Prop} {f : α → Bool} {g : β → Bool} (hfg : ∀ a b, P a b → f a = g b) {l : List α} {l' : List β}
    (h : List.Forall₂ P l l') : l.all f = l'.all g := by
  induction h with
  | nil => rfl
  | cons h1 _ ih => rw [List.all_cons, List.all_cons, ih, hfg _ _ h1]

theorem forall₂_dropWhile {α β : Type} {P : α → β → Prop} {f : α → Bool} {g : β → Bool} (hfg : ∀ a b, P a b → f a = g b) {l : List α}
    {l' : List β} (h : List.Forall₂ P l l') : List.Forall₂ P (l.dropWhile f) (l'.dropWhile g) := by
  induction h with
  | nil => exact .nil
  | cons h1 h2 ih =>
    rw [List.dropWhile_cons, List.dropWhile_cons, hfg _ _ h1]
    split
    · exact ih
    · exact .cons h1 h2

theorem forall₂_conn {l l' : List Conn} (h : List.Forall₂ (Conn.Rel Q) l l') :
    List.Forall₂ (Side.Rel Q) (l.map Side.conn) (l'.map Side.conn) := forall₂_map (fun _ _ h => .conn h) h

section

variable (hQ : BiUnique Q) {D : Decomp σ T} {D' : Decomp σ' T} (h : Decomp.Rel Q R D D')

include h hQ in
theorem Decomp.Rel.connections {a b : Label} (hab : Q a b) : RelM (Conns.Rel Q) (D.connections a) (D'.connections b) :=
  h.lengths.conns.at' hQ hab

include h in
theorem Decomp.Rel.comp (i : ℕ) : RelM (Comp.Rel Q) (D.comp i) (D'.comp i) := by
  unfold Decomp.comp
  rcases forall₂_getElem? h.comps i with ⟨h1, h2⟩ | ⟨x, y, h1, h2, h3⟩
  · rw [h1, h2]; exact RelM.error _
  · rw [h1, h2]; exact h3

include h in
theorem Decomp.Rel.setComp (i : ℕ) {x y : Comp T} (hxy : Comp.Rel Q x y) : Decomp.Rel Q R (D.setComp i x) (D'.setComp i y) :=
  ⟨forall₂_set' h.comps i hxy, h.lengths⟩

include h hQ in
theorem Decomp.Rel.modify {a b : Label} (hab : Q a b) {f g : Conns → Conns} (hfg : ∀ u v, Conns.Rel Q u v → Conns.Rel Q (f u) (g v)) :
    RelM (Decomp.Rel Q R) (D.modify a f) (D'.modify b g) := by
  unfold Decomp.modify
  exact (h.lengths.conns.update hQ hab hfg).bind
    (fun m m' hm => ⟨h.comps, h.lengths.inner, h.lengths.stack, hm, h.lengths.others⟩)

theorem Comp.Rel.topContour {x y : Comp T} (h : Comp.Rel Q x y) : List.Forall₂ Q x.topContour y.topContour := by
  unfold Comp.topContour
  rw [h.iet.swapped]
  split
  · exact h.iet.bottom
  · exact h.iet.top

theorem Comp.Rel.bottomContour {x y : Comp T} (h : Comp.Rel Q x y) : List.Forall₂ Q x.bottomContour y.bottomContour := by
  unfold Comp.bottomContour
  rw [h.iet.swapped]
  split
  · exact h.iet.top
  · exact h.iet.bottom

include h in
theorem Decomp.Rel.topContour (i : ℕ) : RelM (List.Forall₂ (HalfEdge.Rel Q)) (D.topContour i) (D'.topContour i) := by
  unfold Decomp.topContour
  exact (h.comp i).bind (fun x y hxy => forall₂_map (fun a b hab => ⟨rfl, hab, rfl⟩) hxy.topContour)

include h in
theorem Decomp.Rel.bottomContour (i : ℕ) : RelM (List.Forall₂ (HalfEdge.Rel Q)) (D.bottomContour i) (D'.bottomContour i) := by
  unfold Decomp.bottomContour
  exact (h.comp i).bind (fun x y hxy => forall₂_map (fun a b hab => ⟨rfl, hab, rfl⟩) hxy.bottomContour)

include h hQ in
theorem Decomp.Rel.heLeft {x y : HalfEdge} (hxy : HalfEdge.Rel Q x y) : RelM (List.Forall₂ (Conn.Rel Q)) (D.heLeft x) (D'.heLeft y) := by
  unfold Decomp.heLeft
  refine (h.connections hQ hxy.label).bind (fun u v huv => ?_)
  rw [hxy.top]
  show List.Forall₂ _ _ _
  split
  · exact huv.topLeft
  · exact huv.bottomLeft

include h hQ in
theorem Decomp.Rel.heRight {x y : HalfEdge} (hxy : HalfEdge.Rel Q x y) : RelM (List.Forall₂ (Conn.Rel Q)) (D.heRight x) (D'.heRight y) := by
  unfold Decomp.heRight
  refine (h.connections hQ hxy.label).bind (fun u v huv => ?_)
  rw [hxy.top]
  show List.Forall₂ _ _ _
  split
  · exact huv.topRight
  · exact huv.bottomRight

include h hQ in
theorem Decomp.Rel.cross {x y : HalfEdge} (hxy : HalfEdge.Rel Q x y) : RelM (List.Forall₂ (Side.Rel Q)) (D.cross x) (D'.cross y) := by
  unfold Decomp.cross
  refine (h.heLeft hQ hxy).bind (fun u v huv => ?_)
  refine (h.heRight hQ hxy).bind (fun u' v' huv' => ?_)
  refine RelM.ite (by rw [hxy.top]) (fun _ _ => ?_) (fun _ _ => ?_)
  · exact forall₂_append (forall₂_append (forall₂_conn huv') (.cons (.edge hxy) .nil)) (forall₂_reverse (forall₂_conn huv))
  · exact forall₂_append (forall₂_append (forall₂_reverse (forall₂_conn huv)) (.cons (.edge hxy) .nil)) (forall₂_conn huv')

include hQ in
theorem after_rel {a b : Label} (hab : Q a b) {l l' : List Label} (hl : List.Forall₂ Q l l') :
    RelM (OptRel Q) (Decomp.after a l) (Decomp.after b l') := by
  induction hl with
  | nil => exact RelM.error _
  | cons h1 h2 ih =>
    unfold Decomp.after
    exact RelM.ite (eq_iff_of_biUnique hQ h1 hab) (fun _ _ => forall₂_head? h2) (fun _ _ => ih)

include h hQ in
theorem Decomp.Rel.next {x y : HalfEdge} (hxy : HalfEdge.Rel Q x y) : RelM (OptRel (HalfEdge.Rel Q)) (D.next x) (D'.next y) := by
  unfold Decomp.next
  rw [hxy.comp, hxy.top]
  refine (h.comp _).bind (fun u v huv => ?_)
  refine (after_rel hQ hxy.label (l := if y.top = true then u.iet.top else u.iet.bottom) ?_).bind (fun p q hpq => ?_)
  · split
    · exact huv.iet.top
    · exact huv.iet.bottom
  · cases hpq with
    | none => exact .none
    | some hpq => exact .some ⟨rfl, hpq, rfl⟩

include h hQ in
theorem Decomp.Rel.previous {x y : HalfEdge} (hxy : HalfEdge.Rel Q x y) : RelM (OptRel (HalfEdge.Rel Q)) (D.previous x) (D'.previous y) := by
  unfold Decomp.previous
  rw [hxy.comp, hxy.top]
  refine (h.comp _).bind (fun u v huv => ?_)
  refine (after_rel hQ hxy.label (l := (if y.top = true then u.iet.top else u.iet.bottom).reverse) ?_).bind (fun p q hpq => ?_)
  · apply forall₂_reverse
    split
    · exact huv.iet.top
    · exact huv.iet.bottom
  · cases hpq with
    | none => exact .none
    | some hpq => exact .some ⟨rfl, hpq, rfl⟩

include h hQ in
theorem Decomp.Rel.component {x y : HalfEdge} (hxy : HalfEdge.Rel Q x y) : D.component x = D'.component y := by
  apply RelM.to_eq
  unfold Decomp.component
  have key : ∀ u v, List.Forall₂ (HalfEdge.Rel Q) u v → RelM Eq (do assertM (x ∈ u); Pure.pure x.comp) (do assertM (y ∈ v); Pure.pure y.comp) := by
    intro u v huv
    refine (RelM.assertM ?_).bind (fun _ _ _ => hxy.comp)
    rw [decide_eq_decide]
    exact forall₂_mem (HalfEdge.Rel.biUnique hQ) hxy huv
  refine RelM.ite (by rw [hxy.top]) (fun _ _ => ?_) (fun _ _ => ?_)
  · exact RelM.bind (by rw [hxy.comp]; exact h.topContour _) key
  · exact RelM.bind (by rw [hxy.comp]; exact h.bottomContour _) key

include hQ in
theorem chainTop_rel {l l' : List Conn} (hl : List.Forall₂ (Conn.Rel Q) l l') : ∀ {x y : Sep}, Sep.Rel Q x y →
    RelM (Sep.Rel Q) (Decomp.chainTop l x) (Decomp.chainTop l' y) := by
  induction hl with
  | nil => intro x y hxy; exact hxy
  | cons h1 _ ih =>
    intro x y hxy
    unfold Decomp.chainTop
    refine (RelM.assertM ?_).bind (fun _ _ _ => ih ⟨h1.source.label, hxy.parallel⟩)
    rw [decide_eq_decide]
    exact eq_iff_of_biUnique (Sep.Rel.biUnique hQ) hxy h1.target

include hQ in
theorem chainBottom_rel {l l' : List Conn} (hl : List.Forall₂ (Conn.Rel Q) l l') : ∀ {x y : Sep}, Sep.Rel Q x y →
    RelM (Sep.Rel Q) (Decomp.chainBottom l x) (Decomp.chainBottom l' y) := by
  induction hl with
  | nil => intro x y hxy; exact hxy
  | cons h1 _ ih =>
    intro x y hxy
    unfold Decomp.chainBottom
    refine (RelM.assertM ?_).bind (fun _ _ _ => ih ⟨h1.target.label, hxy.parallel⟩)
    rw [decide_eq_decide]
    exact eq_iff_of_biUnique (Sep.Rel.biUnique hQ) hxy h1.source

include h hQ in
theorem Decomp.Rel.makeAtTop {a b : Label} (hab : Q a b) : RelM (Sep.Rel Q) (D.makeAtTop a) (D'.makeAtTop b) := by
  unfold Decomp.makeAtTop
  exact (h.connections hQ hab).bind (fun u v huv => chainTop_rel hQ (forall₂_reverse huv.topRight) ⟨hab, rfl⟩)

include h hQ in
theorem Decomp.Rel.makeAtBottom {a b : Label} (hab : Q a b) : RelM (Sep.Rel Q) (D.makeAtBottom a) (D'.makeAtBottom b) := by
  unfold Decomp.makeAtBottom
  exact (h.connections hQ hab).bind (fun u v huv => chainBottom_rel hQ huv.bottomRight ⟨hab, rfl⟩)

include h hQ in
theorem Decomp.Rel.separatrix {x y : HalfEdge} (hxy : HalfEdge.Rel Q x y) : RelM (OptRel (Sep.Rel Q)) (D.separatrix x) (D'.separatrix y) := by
  unfold Decomp.separatrix
  refine (h.next hQ hxy).bind (fun u v huv => ?_)
  cases huv with
  | none => exact .none
  | some _ =>
    refine RelM.ite (by rw [hxy.top]) (fun _ _ => ?_) (fun _ _ => ?_)
    · exact (h.makeAtTop hQ hxy.label).bind (fun _ _ hpq => .some hpq)
    · exact (h.makeAtBottom hQ hxy.label).bind (fun _ _ hpq => .some hpq)

theorem headM_rel {l l' : List Label} (hl : List.Forall₂ Q l l') : RelM Q (Decomp.headM l) (Decomp.headM l') := by
  cases hl with
  | nil => exact RelM.error _
  | cons h1 _ => exact h1

theorem lastM_rel {l l' : List Label} (hl : List.Forall₂ Q l l') : RelM Q (Decomp.lastM l) (Decomp.lastM l') :=
  headM_rel (forall₂_reverse hl)

include h hQ in
theorem Decomp.Rel.left (i : ℕ) : RelM (List.Forall₂ (Side.Rel Q)) (D.left i) (D'.left i) := by
  unfold Decomp.left
  refine (h.comp i).bind (fun x y hxy => ?_)
  refine (headM_rel hxy.bottomContour).bind (fun a b hab => ?_)
  refine (h.connections hQ hab).bind (fun u v huv => ?_)
  refine (headM_rel hxy.topContour).bind (fun a b hab => ?_)
  refine (h.connections hQ hab).bind (fun u' v' huv' => ?_)
  exact forall₂_reverse (forall₂_conn (forall₂_append huv.bottomLeft huv'.topLeft))

include h hQ in
theorem Decomp.Rel.right (i : ℕ) : RelM (List.Forall₂ (Side.Rel Q)) (D.right i) (D'.right i) := by
  unfold Decomp.right
  refine (h.comp i).bind (fun x y hxy => ?_)
  refine (lastM_rel hxy.bottomContour).bind (fun a b hab => ?_)
  refine (h.connections hQ hab).bind (fun u v huv => ?_)
  refine (lastM_rel hxy.topContour).bind (fun a b hab => ?_)
  refine (h.connections hQ hab).bind (fun u' v' huv' => ?_)
  exact forall₂_conn (forall₂_append huv.bottomRight huv'.topRight)

include h hQ in
theorem Decomp.Rel.horizontalTop {l l' : List HalfEdge} (hl : List.Forall₂ (HalfEdge.Rel Q) l l') : ∀ first : Bool,
    RelM (List.Forall₂ (Side.Rel Q)) (D.horizontalTop first l) (D'.horizontalTop first l') := by
  induction hl with
  | nil => intro first; exact List.Forall₂.nil
  | cons h1 h2 ih =>
    intro first
    unfold Decomp.horizontalTop
    refine (h.connections hQ h1.label).bind (fun u v huv => ?_)
    refine (ih false).bind (fun p q hpq => ?_)
    refine forall₂_append (forall₂_append (forall₂_append ?_ (.cons (.edge h1) .nil)) ?_) hpq
    · cases first
      · exact forall₂_conn huv.topLeft
      · exact .nil
    · cases h2 with
      | nil => exact .nil
      | cons _ _ => exact forall₂_reverse (forall₂_conn huv.topRight)

include h hQ in
theorem Decomp.Rel.horizontalBottom {l l' : List HalfEdge} (hl : List.Forall₂ (HalfEdge.Rel Q) l l') : ∀ first : Bool,
    RelM (List.Forall₂ (Side.Rel Q)) (D.horizontalBottom first l) (D'.horizontalBottom first l') := by
  induction hl with
  | nil => intro first; exact List.Forall₂.nil
  | cons h1 h2 ih =>
    intro first
    unfold Decomp.horizontalBottom
    refine (h.connections hQ h1.label).bind (fun u v huv => ?_)
    refine (ih false).bind (fun p q hpq => ?_)
    refine forall₂_append (forall₂_append (forall₂_append ?_ (.cons (.edge h1) .nil)) ?_) hpq
    · cases first
      · exact forall₂_reverse (forall₂_conn huv.bottomLeft)
      · exact .nil
    · cases h2 with
      | nil => exact .nil
      | cons _ _ => exact forall₂_conn huv.bottomRight

include h hQ in
theorem Decomp.Rel.top (i : ℕ) : RelM (List.Forall₂ (Side.Rel Q)) (D.top i) (D'.top i) := by
  unfold Decomp.top
  refine (h.topContour i).bind (fun x y hxy => ?_)
  exact (h.horizontalTop hQ hxy true).bind (fun _ _ hpq => forall₂_reverse hpq)

include h hQ in
theorem Decomp.Rel.bottom (i : ℕ) : RelM (List.Forall₂ (Side.Rel Q)) (D.bottom i) (D'.bottom i) := by
  unfold Decomp.bottom
  exact (h.bottomContour i).bind (fun x y hxy => h.horizontalBottom hQ hxy true)

include h hQ in
theorem Decomp.Rel.perimeter (i : ℕ) : RelM (List.Forall₂ (Side.Rel Q)) (D.perimeter i) (D'.perimeter i) := by
  unfold Decomp.perimeter
  refine (h.bottom hQ i).bind (fun _ _ h1 => ?_)
  refine (h.right hQ i).bind (fun _ _ h2 => ?_)
  refine (h.top hQ i).bind (fun _ _ h3 => ?_)
  refine (h.left hQ i).bind (fun _ _ h4 => ?_)
  have := forall₂_append (forall₂_append (forall₂_append h1 h2) h3) h4
  refine (RelM.assertM ?_).bind (fun _ _ _ => this)
  rw [decide_eq_decide]
  exact List.rel_nodup (Side.Rel.biUnique hQ) this

theorem Side.Rel.flip {x y : Side} (h : Side.Rel Q x y) : Side.Rel Q x.flip y.flip := by
  cases h with
  | edge h => exact .edge h
  | conn h => exact .conn h.neg

include h hQ in
theorem Decomp.Rel.crossReversed {x y : HalfEdge} (hxy : HalfEdge.Rel Q x y) :
    RelM (List.Forall₂ (Side.Rel Q)) (D.crossReversed x) (D'.crossReversed y) := by
  unfold Decomp.crossReversed
  exact (h.cross hQ hxy).bind (fun _ _ hpq => forall₂_map (fun _ _ h => h.flip) (forall₂_reverse hpq))

include h hQ in
theorem Decomp.Rel.walkAlong (i : ℕ) (top : Bool) {a b : Label} (hab : Q a b) {l l' : List Label} (hl : List.Forall₂ Q l l') :
    RelM (fun p q => List.Forall₂ (Side.Rel Q) p.1 q.1 ∧ p.2 = q.2) (D.walkAlong i top a l) (D'.walkAlong i top b l') := by
  induction hl with
  | nil => exact ⟨.nil, rfl⟩
  | @cons c d _ _ h1 h2 ih =>
    unfold Decomp.walkAlong
    refine (h.crossReversed hQ (x := ⟨i, c, top⟩) (y := ⟨i, d, top⟩) ⟨rfl, h1, rfl⟩).bind (fun u v huv => ?_)
    refine RelM.ite (eq_iff_of_biUnique hQ h1 hab) (fun _ _ => ⟨huv, rfl⟩) (fun _ _ => ?_)
    refine ih.bind ?_
    rintro ⟨p, r⟩ ⟨q, r'⟩ ⟨h3, h4⟩
    exact ⟨forall₂_append huv h3, h4⟩

theorem ne_label_rel (hQ : BiUnique Q) {a b : Label} (hab : Q a b) : ∀ x y : Label, Q x y → decide (x ≠ a) = decide (y ≠ b) := by
  intro x y hxy
  rw [decide_eq_decide, ne_eq, ne_eq, eq_iff_of_biUnique hQ hxy hab]

include h hQ in
theorem Decomp.Rel.walkClockwise : ∀ (n : ℕ) {x y x' y' : HalfEdge}, HalfEdge.Rel Q x y → HalfEdge.Rel Q x' y' →
    RelM (List.Forall₂ (Side.Rel Q)) (D.walkClockwise n x x') (D'.walkClockwise n y y') := by
  intro n
  induction n with
  | zero => intro _ _ _ _ _ _; exact RelM.error _
  | succ n ih =>
    intro x y x' y' hxy hxy'
    unfold Decomp.walkClockwise
    refine (RelM.of_eq' (h.component hQ hxy)).bind (fun i i' hi => ?_)
    subst hi
    refine (RelM.of_eq' (h.component hQ hxy')).bind (fun j j' hj => ?_)
    subst hj
    refine (RelM.assertM rfl).bind (fun _ _ _ => ?_)
    refine (h.comp i).bind (fun u v huv => ?_)
    rw [hxy.top, hxy'.top]
    cases y.top <;> cases y'.top
    · refine (h.walkAlong hQ i false hxy'.label (forall₂_dropWhile (ne_label_rel hQ hxy.label) (forall₂_reverse huv.iet.bottom))).bind ?_
      rintro ⟨p, r⟩ ⟨q, r'⟩ ⟨h3, h4⟩
      simp only at h4
      subst h4
      refine RelM.ite Iff.rfl (fun _ _ => h3) (fun _ _ => ?_)
      refine (headM_rel huv.topContour).bind (fun a b hab => ?_)
      exact (ih (x := ⟨i, a, _⟩) (y := ⟨i, b, _⟩) ⟨rfl, hab, rfl⟩ hxy').bind (fun _ _ h5 => forall₂_append h3 h5)
    · refine (headM_rel huv.bottomContour).bind (fun a b hab => ?_)
      refine (ih hxy (x' := ⟨i, a, _⟩) (y' := ⟨i, b, _⟩) ⟨rfl, hab, rfl⟩).bind (fun _ _ h5 => ?_)
      refine (headM_rel huv.topContour).bind (fun a b hab => ?_)
      exact (ih (x := ⟨i, a, _⟩) (y := ⟨i, b, _⟩) ⟨rfl, hab, rfl⟩ hxy').bind (fun _ _ h6 => forall₂_append h5 h6)
    · refine (lastM_rel huv.topContour).bind (fun a b hab => ?_)
      refine (ih hxy (x' := ⟨i, a, _⟩) (y' := ⟨i, b, _⟩) ⟨rfl, hab, rfl⟩).bind (fun _ _ h5 => ?_)
      refine (lastM_rel huv.bottomContour).bind (fun a b hab => ?_)
      exact (ih (x := ⟨i, a, _⟩) (y := ⟨i, b, _⟩) ⟨rfl, hab, rfl⟩ hxy').bind (fun _ _ h6 => forall₂_append h5 h6)
    · refine (h.walkAlong hQ i true hxy'.label (forall₂_dropWhile (ne_label_rel hQ hxy.label) huv.iet.top)).bind ?_
      rintro ⟨p, r⟩ ⟨q, r'⟩ ⟨h3, h4⟩
      simp only at h4
      subst h4
      refine RelM.ite Iff.rfl (fun _ _ => h3) (fun _ _ => ?_)
      refine (lastM_rel huv.bottomContour).bind (fun a b hab => ?_)
      exact (ih (x := ⟨i, a, _⟩) (y := ⟨i, b, _⟩) ⟨rfl, hab, rfl⟩ hxy').bind (fun _ _ h5 => forall₂_append h3 h5)

include hQ in
theorem checkSeparatrices_rel {l l' : List Conn} (hl : List.Forall₂ (Conn.Rel Q) l l') :
    RelM (fun _ _ => True) (Decomp.checkSeparatrices l) (Decomp.checkSeparatrices l') := by
  unfold Decomp.checkSeparatrices
  have h1 : List.Forall₂ (Sep.Rel Q) (l.flatMap (fun c => [c.source, c.target])) (l'.flatMap (fun c => [c.source, c.target])) :=
    forall₂_flatMap (fun a b hab => .cons hab.source (.cons hab.target .nil)) hl
  refine RelM.forM (fun s t hst => ?_) h1
  have h2 : List.Forall₂ (Conn.Rel Q) (l.flatMap (fun c => (if c.source = s then [c] else []) ++ (if c.target = s then [c] else [])))
      (l'.flatMap (fun c => (if c.source = t then [c] else []) ++ (if c.target = t then [c] else []))) := by
    refine forall₂_flatMap (fun a b hab => ?_) hl
    have e1 := eq_iff_of_biUnique (Sep.Rel.biUnique hQ) hab.source hst
    have e2 := eq_iff_of_biUnique (Sep.Rel.biUnique hQ) hab.target hst
    refine forall₂_append ?_ ?_
    · by_cases e : a.source = s
      · rw [if_pos e, if_pos (e1.1 e)]; exact .cons hab .nil
      · rw [if_neg e, if_neg (fun q => e (e1.2 q))]; exact .nil
    · by_cases e : a.target = s
      · rw [if_pos e, if_pos (e2.1 e)]; exact .cons hab .nil
      · rw [if_neg e, if_neg (fun q => e (e2.2 q))]; exact .nil
  dsimp only
  generalize l.flatMap (fun c => (if c.source = s then [c] else []) ++ (if c.target = s then [c] else [])) = u,
    l'.flatMap (fun c => (if c.source = t then [c] else []) ++ (if c.target = t then [c] else [])) = v at h2
  cases h2 with
  | nil => exact trivial
  | cons p1 h2 =>
    cases h2 with
    | nil => exact trivial
    | cons p2 h2 =>
      cases h2 with
      | nil =>
        refine RelM.assertM ?_
        rw [decide_eq_decide]
        exact eq_iff_of_biUnique (Conn.Rel.biUnique hQ) p1 p2.neg
      | cons p3 h2 => exact RelM.error _

theorem leftConns_rel {u v : Conns} (h : Conns.Rel Q u v) : List.Forall₂ (Conn.Rel Q) (Decomp.leftConns u) (Decomp.leftConns v) :=
  forall₂_append h.topLeft h.bottomLeft

theorem rightConns_rel {u v : Conns} (h : Conns.Rel Q u v) : List.Forall₂ (Conn.Rel Q) (Decomp.rightConns u) (Decomp.rightConns v) :=
  forall₂_append h.topRight h.bottomRight

include h hQ in
theorem Decomp.Rel.check : RelM (fun _ _ => True) D.check D'.check := by
  unfold Decomp.check
  have hv := h.lengths.conns.val
  refine (RelM.forM (fun a b hab => ?_) h.lengths.conns.keys).bind (fun _ _ _ => ?_)
  · refine (RelM.assertM ?_).bind (fun _ _ _ => RelM.assertM ?_)
    · refine forall₂_all_rename (fun c d hcd => ?_) (leftConns_rel (hv a b hab))
      unfold Conn.antiparallel
      rw [hcd.parallel]
    · exact forall₂_all_rename (fun c d hcd => hcd.parallel) (rightConns_rel (hv a b hab))
  · refine checkSeparatrices_rel hQ (forall₂_flatMap (fun a b hab => ?_) h.lengths.conns.keys)
    exact forall₂_append (leftConns_rel (hv a b hab)) (rightConns_rel (hv a b hab))

variable (hO : OpsRenamed Q R O O')

include hO hQ in
theorem boshernitzanCost_rel {E F : IET T} (h : IET.Rel Q E F) {s : LWC σ} {t : LWC σ'} (hs : LWC.Rel Q R s t) :
    RelM (fun p q => p.1 = q.1 ∧ IET.Rel Q p.2 q.2) (Decomp.boshernitzanCost O E s) (Decomp.boshernitzanCost O' F t) := by
  unfold Decomp.boshernitzanCost
  refine (IET.Rel.safInvariant hQ (LWC.opsRenamed hQ hO) h hs).bind ?_
  rintro ⟨p, E⟩ ⟨q, F⟩ ⟨h1, h2⟩
  simp only at h1
  subst h1
  exact ⟨rfl, h2⟩

include hO hQ in
theorem chunks_rel (L : PPL) (cost : Option ℤ) : ∀ (n : ℕ) (limit : ℤ) {E F : IET T}, IET.Rel Q E F → ∀ {s : LWC σ} {t : LWC σ'}, LWC.Rel Q R s t →
    RelM (fun p q => InductionStep.Rel Q p.1 q.1 ∧ IET.Rel Q p.2.1 q.2.1 ∧ LWC.Rel Q R p.2.2 q.2.2) (Decomp.chunks L O cost n limit E s)
      (Decomp.chunks L O' cost n limit F t) := by
  intro n
  induction n with
  | zero => intro _ _ _ _ _ _ _; exact RelM.error _
  | succ n ih =>
    intro limit E F h s t hs
    unfold Decomp.chunks
    refine (IET.Rel.induce hQ (LWC.opsRenamed hQ hO) L 0 _ h hs).bind ?_
    rintro ⟨p, E', s'⟩ ⟨q, F', t'⟩ ⟨h1, h2, h3⟩
    simp only at h1 h2 h3
    refine RelM.ite (by simp only [h1.result]) (fun _ _ => ih _ h2 h3) (fun _ _ => ⟨h1, h2, h3⟩)

include h hQ in
theorem Decomp.Rel.registerSeparating (i j : ℕ) {x y : Conn} (hxy : Conn.Rel Q x y) :
    RelM (Decomp.Rel Q R) (D.registerSeparating i x j) (D'.registerSeparating i y j) := by
  unfold Decomp.registerSeparating
  refine (RelM.assertM hxy.parallel).bind (fun _ _ _ => ?_)
  refine (RelM.assertM rfl).bind (fun _ _ _ => ?_)
  refine (h.comp i).bind (fun u v huv => ?_)
  refine (lastM_rel huv.iet.bottom).bind (fun a b hab => ?_)
  refine (h.modify hQ hab (f := fun c => { c with bottomRight := c.bottomRight ++ [x] }) (g := fun c => { c with bottomRight := c.bottomRight ++ [y] })
    (fun p q hpq => ⟨hpq.topLeft, hpq.topRight, hpq.bottomLeft, forall₂_append hpq.bottomRight (.cons hxy .nil)⟩)).bind (fun D D' h => ?_)
  refine (h.comp j).bind (fun u v huv => ?_)
  refine (headM_rel huv.iet.bottom).bind (fun a b hab => ?_)
  refine (h.modify hQ hab (f := fun c => { c with bottomLeft := c.bottomLeft ++ [x.neg] })
    (g := fun c => { c with bottomLeft := c.bottomLeft ++ [y.neg] })
    (fun p q hpq => ⟨hpq.topLeft, hpq.topRight, forall₂_append hpq.bottomLeft (.cons hxy.neg .nil), hpq.bottomRight⟩)).bind (fun D D' h => ?_)
  refine (h.right hQ i).bind (fun u v huv => ?_)
  refine (RelM.assertM ?_).bind (fun _ _ _ => ?_)
  · rw [decide_eq_decide, ne_eq, ne_eq, not_iff_not]; exact forall₂_nil_iff huv
  refine (h.left hQ j).bind (fun u v huv => ?_)
  refine (RelM.assertM ?_).bind (fun _ _ _ => h)
  rw [decide_eq_decide, ne_eq, ne_eq, not_iff_not]; exact forall₂_nil_iff huv

include h hQ in
theorem Decomp.Rel.separating (i : ℕ) {a b a' b' : Label} (hab : Q a b) (hab' : Q a' b') {E F : IET T} (hE : IET.Rel Q E F) :
    RelM (fun p q => DStep.Rel Q p.1 q.1 ∧ Decomp.Rel Q R p.2 q.2) (D.separating i a a' E) (D'.separating i b b' F) := by
  unfold Decomp.separating
  refine (h.comp i).bind (fun u v huv => ?_)
  refine (lastM_rel huv.bottomContour).bind (fun p q hpq => ?_)
  refine (lastM_rel huv.topContour).bind (fun p' q' hpq' => ?_)
  refine (h.walkClockwise hQ 4 (x := ⟨i, p, false⟩) (y := ⟨i, q, false⟩) (x' := ⟨i, p', true⟩) (y' := ⟨i, q', true⟩) ⟨rfl, hpq, rfl⟩
    ⟨rfl, hpq', rfl⟩).bind (fun w w' hw => ?_)
  refine (h.makeAtBottom hQ hab).bind (fun x y hxy => ?_)
  refine (h.makeAtTop hQ hab').bind (fun x' y' hxy' => ?_)
  have hlen : D.comps.length = D'.comps.length := h.comps.length_eq
  have h' : Decomp.Rel Q R { D with comps := D.comps ++ [{ iet := E }] } { D' with comps := D'.comps ++ [{ iet := F }] } :=
    ⟨forall₂_append h.comps (.cons ⟨hE, rfl, rfl, rfl⟩ .nil), h.lengths⟩
  rw [hlen]
  have hc : Conn.Rel Q ⟨x, x'⟩ ⟨y, y'⟩ := ⟨hxy, hxy'⟩
  exact (h'.registerSeparating hQ i _ hc).bind (fun p q hpq => ⟨⟨rfl, .some hc, .some hw, rfl⟩, hpq⟩)

include h hQ in
theorem Decomp.Rel.nonSeparating (i : ℕ) {a b a' b' : Label} (hab : Q a b) (hab' : Q a' b') :
    RelM (fun p q => DStep.Rel Q p.1 q.1 ∧ Decomp.Rel Q R p.2 q.2) (D.nonSeparating i a a') (D'.nonSeparating i b b') := by
  unfold Decomp.nonSeparating
  refine (RelM.assertM ?_).bind (fun _ _ _ => ?_)
  · rw [decide_eq_decide, ne_eq, ne_eq, eq_iff_of_biUnique hQ hab hab']
  refine (h.cross hQ (x := ⟨i, a', true⟩) (y := ⟨i, b', true⟩) ⟨rfl, hab', rfl⟩).bind (fun u v huv => ?_)
  refine (h.cross hQ (x := ⟨i, a, false⟩) (y := ⟨i, b, false⟩) ⟨rfl, hab, rfl⟩).bind (fun u' v' huv' => ?_)
  refine (h.makeAtBottom hQ hab).bind (fun x y hxy => ?_)
  refine (h.makeAtTop hQ hab').bind (fun x' y' hxy' => ?_)
  have hc : Conn.Rel Q ⟨x, x'⟩ ⟨y, y'⟩ := ⟨hxy, hxy'⟩
  refine (h.comp i).bind (fun p q hpq => ?_)
  refine (headM_rel hpq.iet.top).bind (fun f g hfg => ?_)
  refine (RelM.assertM ?_).bind (fun _ _ _ => ?_)
  · rw [decide_eq_decide, ne_eq, ne_eq, eq_iff_of_biUnique hQ hfg hab']
  refine (h.modify hQ hab (f := fun c => { c with bottomRight := c.bottomRight ++ [⟨x, x'⟩] })
    (g := fun c => { c with bottomRight := c.bottomRight ++ [⟨y, y'⟩] })
    (fun p q hpq => ⟨hpq.topLeft, hpq.topRight, hpq.bottomLeft, forall₂_append hpq.bottomRight (.cons hc .nil)⟩)).bind (fun D D' h => ?_)
  refine (h.modify hQ hfg (f := fun c => { c with topLeft := (⟨x, x'⟩ : Conn).neg :: c.topLeft })
    (g := fun c => { c with topLeft := (⟨y, y'⟩ : Conn).neg :: c.topLeft })
    (fun p q hpq => ⟨.cons hc.neg hpq.topLeft, hpq.topRight, hpq.bottomLeft, hpq.bottomRight⟩)).bind (fun D D' h => ?_)
  refine (h.connections hQ hab').bind (fun ct dt hct => ?_)
  refine (h.modify hQ hab (f := fun c => { c with
      bottomLeft := c.bottomLeft ++ ct.topLeft ++ ct.bottomLeft
      bottomRight := c.bottomRight ++ ct.topRight ++ ct.bottomRight })
    (g := fun c => { c with
      bottomLeft := c.bottomLeft ++ dt.topLeft ++ dt.bottomLeft
      bottomRight := c.bottomRight ++ dt.topRight ++ dt.bottomRight })
    (fun p q hpq => ⟨hpq.topLeft, hpq.topRight, forall₂_append (forall₂_append hpq.bottomLeft hct.topLeft) hct.bottomLeft,
      forall₂_append (forall₂_append hpq.bottomRight hct.topRight) hct.bottomRight⟩)).bind (fun D D' h => ?_)
  refine (h.modify hQ hab' (f := fun _ => {}) (g := fun _ => {}) (fun p q hpq => ⟨.nil, .nil, .nil, .nil⟩)).bind (fun D D' h => ?_)
  refine (h.left hQ i).bind (fun w w' hw => ?_)
  refine (RelM.assertM ?_).bind (fun _ _ _ => ?_)
  · rw [decide_eq_decide, ne_eq, ne_eq, not_iff_not]; exact forall₂_nil_iff hw
  exact ⟨⟨rfl, .some hc, .some (forall₂_map (fun _ _ h => h.flip) (forall₂_reverse (forall₂_append huv huv'))), rfl⟩, h⟩

include h in
theorem Decomp.Rel.others (i : ℕ) : List.Forall₂ (Ctx.Rel Q) (D.others i) (D'.others i) :=
  forall₂_map (fun _ _ h => h.iet.ctx) (forall₂_eraseIdx_rename h.comps i)

include h hQ in
theorem Decomp.Rel.conclude (i : ℕ) {x y : InductionStep T} (hxy : InductionStep.Rel Q x y) :
    RelM (fun p q => DStep.Rel Q p.1 q.1 ∧ Decomp.Rel Q R p.2 q.2) (D.conclude i x) (D'.conclude i y) := by
  unfold Decomp.conclude
  refine (h.comp i).bind (fun u v huv => ?_)
  obtain ⟨r, c, a⟩ := x
  obtain ⟨r', c', a'⟩ := y
  obtain ⟨h1, h2, h3⟩ := hxy
  simp only at h1 h2 h3
  subst h1
  cases r with
  | limitReached => exact ⟨⟨rfl, .none, .none, rfl⟩, h⟩
  | cylinder => exact ⟨⟨rfl, .none, .none, rfl⟩, h.setComp i ⟨huv.iet, rfl, rfl, rfl⟩⟩
  | separatingConnection =>
    cases h2 with
    | none => exact RelM.error _
    | some h2 =>
      cases h3 with
      | none => exact RelM.error _
      | some h3 => exact h.separating hQ i h2.1 h2.2 h3
  | nonSeparatingConnection =>
    cases h2 with
    | none => exact RelM.error _
    | some h2 => exact h.nonSeparating hQ i h2.1 h2.2
  | withoutPeriodicTrajectoryBoshernitzan => exact ⟨⟨rfl, .none, .none, rfl⟩, h.setComp i ⟨huv.iet, rfl, rfl, huv.keane⟩⟩
  | withoutPeriodicTrajectoryAutoSimilar => exact ⟨⟨rfl, .none, .none, rfl⟩, h.setComp i ⟨huv.iet, rfl, rfl, huv.keane⟩⟩

include hO hQ h in
theorem Decomp.Rel.decompositionStepBounded (L : PPL) (limit : ℤ) (i : ℕ) :
    RelM (fun p q => DStep.Rel Q p.1 q.1 ∧ Decomp.Rel Q R p.2 q.2) (D.decompositionStepBounded L O limit i)
      (D'.decompositionStepBounded L O' limit i) := by
  unfold Decomp.decompositionStepBounded
  refine (h.comp i).bind (fun u v huv => ?_)
  refine (RelM.assertM (by rw [huv.cylinder, huv.keane])).bind (fun _ _ _ => ?_)
  have hs : LWC.Rel Q R { D.lengths with others := D.others i } { D'.lengths with others := D'.others i } :=
    ⟨h.lengths.inner, h.lengths.stack, h.lengths.conns, h.others i⟩
  refine (boshernitzanCost_rel hQ hO huv.iet hs).bind ?_
  rintro ⟨p, E⟩ ⟨q, F⟩ ⟨h1, h2⟩
  simp only at h1 h2
  subst h1
  refine (chunks_rel hQ hO L p _ limit h2 hs).bind ?_
  rintro ⟨p', E', s'⟩ ⟨q', F', t'⟩ ⟨h3, h4, h5⟩
  simp only at h3 h4 h5
  exact Decomp.Rel.conclude hQ ⟨forall₂_set' h.comps i (a := { u with iet := E' }) (b := { v with iet := F' })
    ⟨h4, huv.cylinder, huv.withoutPeriodicTrajectory, huv.keane⟩, h5⟩ i h3

include hO hQ in
theorem Decomp.Rel.unlimited (L : PPL) (cost : Option ℤ) (i : ℕ) : ∀ (n : ℕ) (limit : ℤ) {D : Decomp σ T} {D' : Decomp σ' T}, Decomp.Rel Q R D D' →
    RelM (fun p q => DStep.Rel Q p.1 q.1 ∧ Decomp.Rel Q R p.2 q.2) (Decomp.unlimited L O cost i n limit D) (Decomp.unlimited L O' cost i n limit D') := by
  intro n
  induction n with
  | zero => intro _ _ _ _; exact RelM.error _
  | succ n ih =>
    intro limit D D' h
    unfold Decomp.unlimited
    refine (h.decompositionStepBounded hQ hO L limit i).bind ?_
    rintro ⟨p, D⟩ ⟨q, D'⟩ ⟨h1, h2⟩
    simp only at h1 h2
    refine RelM.ite (by simp only [h1.result]) (fun _ _ => ⟨h1, h2⟩) (fun _ _ => ?_)
    cases cost with
    | some c => exact ih c h2
    | none => exact RelM.ite Iff.rfl (fun _ _ => ih _ h2) (fun _ _ => RelM.error _)

include hO hQ in
theorem Decomp.Rel.decompositionStep (L : PPL) (fuel : ℕ) (limit : ℤ) (i : ℕ) {D : Decomp σ T} {D' : Decomp σ' T} (h : Decomp.Rel Q R D D') :
    RelM (fun p q => DStep.Rel Q p.1 q.1 ∧ Decomp.Rel Q R p.2 q.2) (D.decompositionStep L O fuel limit i)
      (D'.decompositionStep L O' fuel limit i) := by
  unfold Decomp.decompositionStep
  refine RelM.ite Iff.rfl (fun _ _ => ?_) (fun _ _ => h.decompositionStepBounded hQ hO L limit i)
  refine (h.comp i).bind (fun u v huv => ?_)
  refine (RelM.assertM (by rw [huv.cylinder, huv.keane])).bind (fun _ _ _ => ?_)
  refine (boshernitzanCost_rel hQ hO huv.iet h.lengths).bind ?_
  rintro ⟨p, E⟩ ⟨q, F⟩ ⟨h1, h2⟩
  simp only at h1 h2
  subst h1
  exact Decomp.Rel.unlimited hQ hO L p i fuel 0 (h.setComp i ⟨h2, huv.cylinder, huv.withoutPeriodicTrajectory, huv.keane⟩)

include hO hQ in
theorem Decomp.Rel.decomposeComponent (L : PPL) {target target' : Comp T → Bool} (ht : ∀ x y, Comp.Rel Q x y → target x = target' y) (limit : ℤ) :
    ∀ (n i : ℕ) {D : Decomp σ T} {D' : Decomp σ' T}, Decomp.Rel Q R D D' →
    RelM (fun p q => p.1 = q.1 ∧ Decomp.Rel Q R p.2 q.2) (Decomp.decomposeComponent L O target limit n i D)
      (Decomp.decomposeComponent L O' target' limit n i D') := by
  intro n
  induction n with
  | zero => intro _ _ _ _; exact RelM.error _
  | succ n ih =>
    intro i D D' h
    unfold Decomp.decomposeComponent
    refine (h.comp i).bind (fun u v huv => ?_)
    refine RelM.ite (by rw [ht u v huv]) (fun _ _ => ⟨rfl, h⟩) (fun _ _ => ?_)
    refine (h.decompositionStep hQ hO L n limit i).bind ?_
    rintro ⟨p, D⟩ ⟨q, D'⟩ ⟨h1, h2⟩
    simp only at h1 h2
    refine RelM.ite (by simp only [h1.result]) (fun _ _ => ⟨rfl, h2⟩) (fun _ _ => ?_)
    simp only [h1.additional]
    cases q.additional with
    | none => exact ih i h2
    | some j =>
      refine (ih j h2).bind ?_
      rintro ⟨p, D⟩ ⟨q, D'⟩ ⟨h3, h4⟩
      refine (ih i h4).bind ?_
      rintro ⟨p', D⟩ ⟨q', D'⟩ ⟨h5, h6⟩
      simp only at h3 h5
      subst h3 h5
      exact ⟨rfl, h6⟩

include hO hQ in
theorem Decomp.Rel.decomposeAll (L : PPL) {target target' : Comp T → Bool} (ht : ∀ x y, Comp.Rel Q x y → target x = target' y) (limit : ℤ)
    (fuel : ℕ) : ∀ (is : List ℕ) {D : Decomp σ T} {D' : Decomp σ' T}, Decomp.Rel Q R D D' →
    RelM (fun p q => p.1 = q.1 ∧ Decomp.Rel Q R p.2 q.2) (Decomp.decomposeAll L O target limit fuel is D)
      (Decomp.decomposeAll L O' target' limit fuel is D') := by
  intro is
  induction is with
  | nil => intro D D' h; exact ⟨rfl, h⟩
  | cons i is ih =>
    intro D D' h
    unfold Decomp.decomposeAll
    refine (Decomp.Rel.decomposeComponent hQ hO L ht limit fuel i h).bind ?_
    rintro ⟨p, D⟩ ⟨q, D'⟩ ⟨h1, h2⟩
    simp only at h1 h2
    subst h1
    exact RelM.ite Iff.rfl (fun _ _ => ih h2) (fun _ _ => ⟨rfl, h2⟩)

include hO hQ in
theorem Decomp.Rel.decompose (L : PPL) {target target' : Comp T → Bool} (ht : ∀ x y, Comp.Rel Q x y → target x = target' y) (limit : ℤ)
    (fuel : ℕ) {D : Decomp σ T} {D' : Decomp σ' T} (h : Decomp.Rel Q R D D') :
    RelM (fun p q => p.1 = q.1 ∧ Decomp.Rel Q R p.2 q.2) (D.decompose L O target limit fuel) (D'.decompose L O' target' limit fuel) := by
  unfold Decomp.decompose
  rw [h.comps.length_eq]
  exact Decomp.Rel.decomposeAll hQ hO L ht limit fuel _ h

theorem Comp.Rel.defaultTarget {x y : Comp T} (h : Comp.Rel Q x y) : Decomp.defaultTarget x = Decomp.defaultTarget y := by
  unfold Decomp.defaultTarget
  rw [h.cylinder, h.withoutPeriodicTrajectory]

include hO hQ in
theorem Decomp.Rel.make {E F : IET T} (h : IET.Rel Q E F) {s : σ} {t : σ'} (hs : R s t) :
    RelM (Decomp.Rel Q R) (Decomp.make O E s) (Decomp.make O' F t) := by
  unfold Decomp.make
  have h0 : LWC.Rel Q R ⟨s, [], ⟨[], fun _ => {}⟩, []⟩ ⟨t, [], ⟨[], fun _ => {}⟩, []⟩ := ⟨hs, .nil, ⟨.nil, fun _ _ _ => .empty⟩, .nil⟩
  refine (IET.Rel.mk? hQ (LWC.opsRenamed hQ hO) h.top h.bottom h0).bind (fun u v huv => ?_)
  exact ⟨.cons ⟨huv, rfl, rfl, rfl⟩ .nil, hs, .nil, ⟨h.top, fun _ _ _ => .empty⟩, .nil⟩

/-- Pairs of labels with other names. -/
def PairRel (Q : Label → Label → Prop) (p q : Label × Label) : Prop := Q p.1 q.1 ∧ Q p.2 q.2

theorem injectLeft_rel (top : Bool) {l l' : List (Label × Label)} (hl : List.Forall₂ (PairRel Q) l l') :
    List.Forall₂ (Conn.Rel Q) (Decomp.injectLeft top l).1 (Decomp.injectLeft top l').1 ∧
    List.Forall₂ (Conn.Rel Q) (Decomp.injectLeft top l).2 (Decomp.injectLeft top l').2 := by
  have hm : ∀ p q : Label × Label, PairRel Q p q → Conn.Rel Q ⟨⟨p.1, false⟩, ⟨p.2, true⟩⟩ ⟨⟨q.1, false⟩, ⟨q.2, true⟩⟩ :=
    fun p q h => ⟨⟨h.1, rfl⟩, ⟨h.2, rfl⟩⟩
  cases top
  · exact ⟨forall₂_map hm hl, forall₂_map hm hl⟩
  · exact ⟨forall₂_map hm (forall₂_reverse hl), forall₂_reverse (forall₂_map hm (forall₂_reverse hl))⟩

theorem injectRight_rel (top : Bool) {l l' : List (Label × Label)} (hl : List.Forall₂ (PairRel Q) l l') :
    List.Forall₂ (Conn.Rel Q) (Decomp.injectRight top l).1 (Decomp.injectRight top l').1 ∧
    List.Forall₂ (Conn.Rel Q) (Decomp.injectRight top l).2 (Decomp.injectRight top l').2 := by
  have hm : ∀ p q : Label × Label, PairRel Q p q → Conn.Rel Q ⟨⟨p.1, true⟩, ⟨p.2, false⟩⟩ ⟨⟨q.1, true⟩, ⟨q.2, false⟩⟩ :=
    fun p q h => ⟨⟨h.1, rfl⟩, ⟨h.2, rfl⟩⟩
  cases top
  · exact ⟨forall₂_map hm hl, forall₂_map hm hl⟩
  · exact ⟨forall₂_map hm (forall₂_reverse hl), forall₂_reverse (forall₂_map hm (forall₂_reverse hl))⟩

include h hQ in
theorem Decomp.Rel.inject {x y : HalfEdge} (hxy : HalfEdge.Rel Q x y) {l l' r r' : List (Label × Label)} (hl : List.Forall₂ (PairRel Q) l l')
    (hr : List.Forall₂ (PairRel Q) r r') :
    RelM (fun p q => (List.Forall₂ (Conn.Rel Q) p.1.1 q.1.1 ∧ List.Forall₂ (Conn.Rel Q) p.1.2 q.1.2) ∧ Decomp.Rel Q R p.2 q.2)
      (D.inject x l r) (D'.inject y l' r') := by
  obtain ⟨i, a, top⟩ := x
  obtain ⟨j, b, top'⟩ := y
  obtain ⟨h1, hab, h3⟩ := hxy
  simp only at h1 hab h3
  subst h1 h3
  unfold Decomp.inject
  refine (h.check hQ).bind (fun _ _ _ => ?_)
  refine (h.connections hQ hab).bind (fun u v huv => ?_)
  refine (RelM.assertM ?_).bind (fun _ _ _ => ?_)
  · rw [decide_eq_decide]
    refine or_congr (forall₂_nil_iff hl) ?_
    cases top
    · exact forall₂_nil_iff huv.bottomLeft
    · exact forall₂_nil_iff huv.topLeft
  refine (h.modify hQ hab (fun p q hpq => ?_)).bind (fun D D' h => ?_)
  · cases top
    · exact ⟨hpq.topLeft, hpq.topRight, forall₂_append hpq.bottomLeft (injectLeft_rel false hl).1, hpq.bottomRight⟩
    · exact ⟨forall₂_append hpq.topLeft (injectLeft_rel true hl).1, hpq.topRight, hpq.bottomLeft, hpq.bottomRight⟩
  refine (RelM.assertM ?_).bind (fun _ _ _ => ?_)
  · rw [decide_eq_decide]
    refine or_congr (forall₂_nil_iff hr) ?_
    cases top
    · exact forall₂_nil_iff huv.bottomRight
    · exact forall₂_nil_iff huv.topRight
  refine (h.modify hQ hab (fun p q hpq => ?_)).bind (fun D D' h => ?_)
  · cases top
    · exact ⟨hpq.topLeft, hpq.topRight, hpq.bottomLeft, forall₂_append hpq.bottomRight (injectRight_rel false hr).1⟩
    · exact ⟨hpq.topLeft, forall₂_append hpq.topRight (injectRight_rel true hr).1, hpq.bottomLeft, hpq.bottomRight⟩
  exact (h.check hQ).bind (fun _ _ _ => ⟨⟨(injectLeft_rel top hl).2, (injectRight_rel top hr).2⟩, h⟩)

include hO hQ h in
theorem Decomp.Rel.iet (A : Arith T) (i : ℕ) :
    RelM (fun p q => IET.Rel Q p.1 q.1 ∧ SLengths.Rel Q p.2 q.2) (D.iet O A i) (D'.iet O' A i) := by
  unfold Decomp.iet
  refine (h.comp i).bind (fun u v huv => ?_)
  refine (hO.forget h.lengths.inner).bind (fun f g hfg => ?_)
  exact (IET.Rel.mk? hQ (SLengths.opsRenamed hQ A) huv.iet.top huv.iet.bottom hfg).bind (fun p q hpq => ⟨hpq, hfg⟩)

end

end Verif
