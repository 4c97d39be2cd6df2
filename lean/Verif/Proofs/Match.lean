import Verif.Proofs.RebaseDecomp

/-!
# Decompositions over different lengths that match: they have the same components and connections
-/

namespace Verif

set_option linter.unusedSectionVars false

variable {σ σ' T T' : Type}

/-- Components that look the same, with IETs that are related. -/
structure Comp.Match (Q : IET T → IET T' → Prop) (x : Comp T) (y : Comp T') : Prop where
  top : x.iet.top = y.iet.top
  bottom : x.iet.bottom = y.iet.bottom
  swapped : x.iet.swapped = y.iet.swapped
  cylinder : x.cylinder = y.cylinder
  withoutPeriodicTrajectory : x.withoutPeriodicTrajectory = y.withoutPeriodicTrajectory
  keane : x.keane = y.keane
  iet : Q x.iet y.iet

/-- Decompositions with the same connections whose components look the same. -/
structure Decomp.Match (Q : IET T → IET T' → Prop) (D : Decomp σ T) (D' : Decomp σ' T') : Prop where
  conns : D.lengths.conns = D'.lengths.conns
  comps : List.Forall₂ (Comp.Match Q) D.comps D'.comps

/-- Steps of induction that look the same. -/
structure StepMatch (Q : IET T → IET T' → Prop) (x : InductionStep T) (y : InductionStep T') : Prop where
  result : x.result = y.result
  connection : x.connection = y.connection
  additional : (x.additional = none ∧ y.additional = none) ∨ ∃ A A', x.additional = some A ∧ y.additional = some A' ∧
    A.top = A'.top ∧ A.bottom = A'.bottom ∧ A.swapped = A'.swapped ∧ Q A A'

variable {Q : IET T → IET T' → Prop} {D : Decomp σ T} {D' : Decomp σ' T'}

theorem Decomp.Match.comp (h : D.Match Q D') (i : ℕ) : RelM (Comp.Match Q) (D.comp i) (D'.comp i) := by
  have hl := h.comps.length_eq
  simp only [Decomp.comp]
  by_cases hi : i < D.comps.length
  · rw [List.getElem?_eq_getElem hi, List.getElem?_eq_getElem (hl ▸ hi)]
    exact (List.forall₂_iff_get.1 h.comps).2 i hi (hl ▸ hi)
  · rw [List.getElem?_eq_none (by omega), List.getElem?_eq_none (by omega)]
    exact rfl

theorem Comp.Match.topContour {x : Comp T} {y : Comp T'} (h : x.Match Q y) : x.topContour = y.topContour := by
  simp only [Comp.topContour, h.top, h.bottom, h.swapped]

theorem Comp.Match.bottomContour {x : Comp T} {y : Comp T'} (h : x.Match Q y) : x.bottomContour = y.bottomContour := by
  simp only [Comp.bottomContour, h.top, h.bottom, h.swapped]

theorem Decomp.Match.connections (h : D.Match Q D') (l : Label) : D.connections l = D'.connections l := by simp only [Decomp.connections, h.conns]

theorem Decomp.Match.topContour (h : D.Match Q D') (i : ℕ) : D.topContour i = D'.topContour i :=
  RelM.eq ((h.comp i).bind (fun x y hx => by rw [hx.topContour]; exact rfl))

theorem Decomp.Match.bottomContour (h : D.Match Q D') (i : ℕ) : D.bottomContour i = D'.bottomContour i :=
  RelM.eq ((h.comp i).bind (fun x y hx => by rw [hx.bottomContour]; exact rfl))

theorem Decomp.Match.cross (h : D.Match Q D') (e : HalfEdge) : D.cross e = D'.cross e := by
  simp only [Decomp.cross, Decomp.heLeft, Decomp.heRight, h.connections]

theorem Decomp.Match.component (h : D.Match Q D') (e : HalfEdge) : D.component e = D'.component e := by
  simp only [Decomp.component, h.topContour, h.bottomContour]

theorem Decomp.Match.makeAtTop (h : D.Match Q D') (l : Label) : D.makeAtTop l = D'.makeAtTop l := by simp only [Decomp.makeAtTop, h.connections]

theorem Decomp.Match.makeAtBottom (h : D.Match Q D') (l : Label) : D.makeAtBottom l = D'.makeAtBottom l := by simp only [Decomp.makeAtBottom, h.connections]

theorem Decomp.Match.left (h : D.Match Q D') (i : ℕ) : D.left i = D'.left i := by
  refine RelM.eq ((h.comp i).bind (fun x y hx => ?_))
  rw [hx.topContour, hx.bottomContour]
  simp only [h.connections]
  exact RelM.refl _

theorem Decomp.Match.right (h : D.Match Q D') (i : ℕ) : D.right i = D'.right i := by
  refine RelM.eq ((h.comp i).bind (fun x y hx => ?_))
  rw [hx.topContour, hx.bottomContour]
  simp only [h.connections]
  exact RelM.refl _

theorem Decomp.Match.walkAlong (h : D.Match Q D') (i : ℕ) (top : Bool) (dst : Label) : ∀ l, D.walkAlong i top dst l = D'.walkAlong i top dst l
  | [] => rfl
  | a :: l => by simp only [Decomp.walkAlong, Decomp.crossReversed, h.cross, Decomp.Match.walkAlong h i top dst l]

theorem Decomp.Match.walkClockwise (h : D.Match Q D') : ∀ (n : ℕ) (a b : HalfEdge), D.walkClockwise n a b = D'.walkClockwise n a b
  | 0, _, _ => rfl
  | n + 1, a, b => by
    have ih := Decomp.Match.walkClockwise h n
    unfold Decomp.walkClockwise
    simp only [h.component, ih, h.walkAlong]
    refine RelM.eq ((RelM.refl _).bind ?_)
    rintro i _ rfl
    refine (RelM.refl _).bind ?_
    rintro j _ rfl
    refine (RelM.refl _).bind ?_
    rintro ⟨⟩ _ -
    refine (h.comp i).bind (fun x y hx => ?_)
    rw [hx.topContour, hx.bottomContour, hx.top, hx.bottom]
    exact RelM.refl _

theorem Decomp.Match.setComp (h : D.Match Q D') (i : ℕ) {x : Comp T} {y : Comp T'} (hx : x.Match Q y) : (D.setComp i x).Match Q (D'.setComp i y) :=
  ⟨h.conns, forall₂_set h.comps (fun _ _ _ _ _ _ h => h) hx⟩

theorem Decomp.Match.modify (h : D.Match Q D') (l : Label) (g : Conns → Conns) : RelM (Decomp.Match Q) (D.modify l g) (D'.modify l g) := by
  unfold Decomp.modify
  rw [h.conns]
  refine (RelM.refl _).bind ?_
  rintro m _ rfl
  exact ⟨rfl, h.comps⟩

theorem Decomp.Match.registerSeparating (h : D.Match Q D') (i : ℕ) (conn : Conn) (j : ℕ) :
    RelM (Decomp.Match Q) (D.registerSeparating i conn j) (D'.registerSeparating i conn j) := by
  unfold Decomp.registerSeparating
  refine (RelM.refl _).bind ?_
  rintro ⟨⟩ _ -
  refine (RelM.refl _).bind ?_
  rintro ⟨⟩ _ -
  refine (h.comp i).bind (fun x y hx => ?_)
  rw [hx.bottom]
  refine (RelM.refl _).bind ?_
  rintro l _ rfl
  refine (h.modify l _).bind (fun D₁ D₁' h₁ => ?_)
  refine (h₁.comp j).bind (fun x y hx => ?_)
  rw [hx.bottom]
  refine (RelM.refl _).bind ?_
  rintro l _ rfl
  refine (h₁.modify l _).bind (fun D₂ D₂' h₂ => ?_)
  rw [h₂.right, h₂.left]
  refine (RelM.refl _).bind ?_
  rintro l _ rfl
  refine (RelM.refl _).bind ?_
  rintro ⟨⟩ _ -
  refine (RelM.refl _).bind ?_
  rintro l _ rfl
  refine (RelM.refl _).bind ?_
  rintro ⟨⟩ _ -
  exact h₂

theorem Decomp.Match.separating (h : D.Match Q D') (i : ℕ) (b t : Label) {A : IET T} {A' : IET T'} (h1 : A.top = A'.top) (h2 : A.bottom = A'.bottom) (h3 : A.swapped = A'.swapped) (hA : Q A A') :
    RelM (fun x y => x.1 = y.1 ∧ x.2.Match Q y.2) (D.separating i b t A) (D'.separating i b t A') := by
  unfold Decomp.separating
  refine (h.comp i).bind (fun x y hx => ?_)
  rw [hx.topContour, hx.bottomContour]
  simp only [h.walkClockwise, h.makeAtBottom, h.makeAtTop, h.comps.length_eq]
  refine (RelM.refl _).bind ?_
  rintro l _ rfl
  refine (RelM.refl _).bind ?_
  rintro l _ rfl
  refine (RelM.refl _).bind ?_
  rintro l _ rfl
  refine (RelM.refl _).bind ?_
  rintro l _ rfl
  refine (RelM.refl _).bind ?_
  rintro l _ rfl
  refine (Decomp.Match.registerSeparating (Q := Q) ?_ i _ _).bind (fun D₁ D₁' h₁ => ⟨rfl, h₁⟩)
  refine ⟨h.conns, List.rel_append h.comps ?_⟩
  exact .cons ⟨h1, h2, h3, rfl, rfl, rfl, hA⟩ .nil

theorem Decomp.Match.nonSeparating (h : D.Match Q D') (i : ℕ) (b t : Label) :
    RelM (fun x y => x.1 = y.1 ∧ x.2.Match Q y.2) (D.nonSeparating i b t) (D'.nonSeparating i b t) := by
  unfold Decomp.nonSeparating
  simp only [h.cross, h.makeAtBottom, h.makeAtTop]
  refine (RelM.refl _).bind ?_
  rintro ⟨⟩ _ -
  refine (RelM.refl _).bind ?_
  rintro l _ rfl
  refine (RelM.refl _).bind ?_
  rintro l _ rfl
  refine (RelM.refl _).bind ?_
  rintro l _ rfl
  refine (RelM.refl _).bind ?_
  rintro l _ rfl
  refine (h.comp i).bind (fun x y hx => ?_)
  rw [hx.top]
  refine (RelM.refl _).bind ?_
  rintro l _ rfl
  refine (RelM.refl _).bind ?_
  rintro ⟨⟩ _ -
  refine (h.modify _ _).bind (fun D₁ D₁' h₁ => ?_)
  refine (h₁.modify _ _).bind (fun D₂ D₂' h₂ => ?_)
  rw [h₂.connections]
  refine (RelM.refl _).bind ?_
  rintro l _ rfl
  refine (h₂.modify _ _).bind (fun D₃ D₃' h₃ => ?_)
  refine (h₃.modify _ _).bind (fun D₄ D₄' h₄ => ?_)
  rw [h₄.left]
  refine (RelM.refl _).bind ?_
  rintro l _ rfl
  refine (RelM.refl _).bind ?_
  rintro ⟨⟩ _ -
  exact ⟨rfl, h₄⟩

theorem Decomp.Match.conclude (h : D.Match Q D') (i : ℕ) {step : InductionStep T} {step' : InductionStep T'} (hs : StepMatch Q step step') :
    RelM (fun x y => x.1 = y.1 ∧ x.2.Match Q y.2) (D.conclude i step) (D'.conclude i step') := by
  unfold Decomp.conclude
  refine (h.comp i).bind (fun x y hx => ?_)
  obtain ⟨r, conn, add⟩ := step
  obtain ⟨r', conn', add'⟩ := step'
  obtain ⟨h1, h2, h3⟩ := hs
  simp only at h1 h2 h3
  subst h1 h2
  cases r <;> simp only
  case cylinder => exact ⟨rfl, h.setComp i { hx with cylinder := rfl, withoutPeriodicTrajectory := rfl, keane := rfl }⟩
  case limitReached => exact ⟨rfl, h⟩
  case withoutPeriodicTrajectoryBoshernitzan => exact ⟨rfl, h.setComp i { hx with cylinder := rfl, withoutPeriodicTrajectory := rfl }⟩
  case withoutPeriodicTrajectoryAutoSimilar => exact ⟨rfl, h.setComp i { hx with cylinder := rfl, withoutPeriodicTrajectory := rfl }⟩
  case separatingConnection =>
    cases conn with
    | none => exact rfl
    | some p =>
      rcases h3 with ⟨e1, e2⟩ | ⟨A, A', e1, e2, g1, g2, g3, g4⟩
      · subst e1 e2; exact rfl
      · subst e1 e2; exact h.separating i p.1 p.2 g1 g2 g3 g4
  case nonSeparatingConnection =>
    cases conn with
    | none => exact rfl
    | some p => exact h.nonSeparating i p.1 p.2

theorem Decomp.Match.mono {Q' : IET T → IET T' → Prop} (h : D.Match Q D') (hQ : ∀ x ∈ D.comps, ∀ y ∈ D'.comps, Q x.iet y.iet → Q' x.iet y.iet) :
    D.Match Q' D' := by
  refine ⟨h.conns, ?_⟩
  have h2 := h.comps
  rw [List.forall₂_iff_get] at h2 ⊢
  refine ⟨h2.1, fun i h1 h2' => ?_⟩
  have := h2.2 i h1 h2'
  exact { this with iet := hQ _ (List.get_mem _ _) _ (List.get_mem _ _) this.iet }

theorem Decomp.Match.others (h : D.Match Q D') (i : ℕ) : D.others i = D'.others i := by
  unfold Decomp.others
  have h2 : List.Forall₂ (Comp.Match Q) (D.comps.eraseIdx i) (D'.comps.eraseIdx i) := forall₂_eraseIdx h.comps
  generalize D.comps.eraseIdx i = l at h2
  generalize D'.comps.eraseIdx i = l' at h2
  induction h2 with
  | nil => rfl
  | cons hx _ ih => rw [List.map_cons, List.map_cons, ih]; simp only [IET.ctx, hx.top, hx.swapped]

end Verif
