import Verif.Proofs.Rebase
import Verif.Proofs.Inject

/-!
# The choice of a basis for coefficients: saddle connections and decompositions
-/

namespace Verif

set_option linter.unusedSectionVars false

variable {σ T ε : Type} [CommRing T] [LinearOrder T] [IsStrictOrderedRing T] {O : LengthsOps σ T} {d : ℕ} {c : T →+ (Fin d → ℚ)} {H : LawfulLengths O c ε}
  {f : List Label → σ → M (List (List ℚ))}

/-! ### Saddle connections -/

section saddle

variable {R : AIET T → AIET T → Prop} {E F : IET T} {s : σ}

/-- A solution in some coordinates is a solution in other coordinates. -/
theorem solution_of_linear {d' : ℕ} {c' : T →+ (Fin d' → ℚ)} (Φ : (Fin d → ℚ) →ₗ[ℚ] (Fin d' → ℚ)) {l : List Label} {g : Label → T} {δ : T}
    (hg : ∀ a, c' (g a) = Φ (c (g a))) (hδ : c' δ = Φ (c δ)) {x : List ℚ}
    (h : ∀ i < d, dot (l.map (fun a => coefAt c i (g a))) x = coefAt c i δ) : ∀ i < d', dot (l.map (fun a => coefAt c' i (g a))) x = coefAt c' i δ := by
  intro i hi
  have e : ∀ t, c' t = Φ (c t) → coefAt c' i t = ((LinearMap.proj ⟨i, hi⟩).comp Φ : (Fin d → ℚ) →ₗ[ℚ] ℚ) (c t) := by
    intro t ht
    simp only [coefAt, AddMonoidHom.coe_mk, ZeroHom.coe_mk, hi, dite_true, ht]
    rfl
  rw [e δ hδ, functional_eq, show (fun a => coefAt c' i (g a)) = fun a => _ from funext (fun a => e (g a) (hg a)), dot_functional]
  refine Finset.sum_congr rfl (fun j _ => ?_)
  have := h j j.2
  simp only [coefAt, AddMonoidHom.coe_mk, ZeroHom.coe_mk, j.2, dite_true, Fin.eta] at this
  rw [this, mul_comm]

theorem nextLabel_some {l : Label} {r : Label} : ∀ {k : List Label}, IET.nextLabel l k = .ok (some r) → ∃ k₁ k₂, k = k₁ ++ l :: r :: k₂
  | [], h => by cases h
  | x :: k, h => by
    simp only [IET.nextLabel] at h
    split at h
    · next hx =>
      cases k with
      | nil => cases h
      | cons y k => cases h; exact ⟨[], k, by rw [hx]; rfl⟩
    · obtain ⟨k₁, k₂, rfl⟩ := nextLabel_some h
      exact ⟨x :: k₁, k₂, rfl⟩

theorem Alike.noSaddle₂ (hf : H.Coordinates f) (hc : ∀ x, c x = 0 → x = 0) {L : PPL} (hL : L.Lawful) (h : Alike H R E F s) (t b : Label) :
    E.boshernitzanNoSaddleConnection₂ L (O.rebase f) t b s = F.boshernitzanNoSaddleConnection₂ L O t b s := by
  by_cases hn : ∃ t' b', IET.nextLabel t F.top = .ok (some t') ∧ IET.nextLabel b F.bottom = .ok (some b')
  · obtain ⟨t', b', ht, hb⟩ := hn
    obtain ⟨k₁, k₂, ht⟩ := nextLabel_some ht
    obtain ⟨l₁, l₂, hb⟩ := nextLabel_some hb
    obtain ⟨r, h1, h2⟩ := boshernitzanNoSaddleConnection₂_spec H hL h.ok ht hb
    obtain ⟨C⟩ := exists_choice hf hc h.okE
    have e : E.boshernitzanNoSaddleConnection₂ L (O.rebase f) t b s = E.boshernitzanNoSaddleConnection₂ L (O.withCoordinates C.c') t b s := by
      simp only [IET.boshernitzanNoSaddleConnection₂, IET.boshernitzanSaddleConnectionValues, IET.boshernitzanEquations, IET.translations,
        IET.labelToCoefficients, IET.coefficients, C.eq]
    obtain ⟨r', h3, h4⟩ := boshernitzanNoSaddleConnection₂_spec (H.withCoordinates C.c') hL (h.okE.withCoordinates C.c') (h.top.trans ht) (h.bottom.trans hb)
    rw [e, h3, h1]
    refine congrArg _ ?_
    rw [Bool.eq_iff_iff, h2, h4, ← h.abs, ← h.top, ← h.bottom]
    have hv := h.okE.valid
    have ho : C.c' (off (H.len s) E.top t' - off (H.len s) E.bottom b') = C.Φ (c (off (H.len s) E.top t' - off (H.len s) E.bottom b')) := by
      have e1 := off_hom (φ := C.c') (ψ := C.Φ.toAddMonoidHom.comp c) C.toC' t'
      have e2 := off_hom (φ := C.c') (ψ := C.Φ.toAddMonoidHom.comp c) (l := E.bottom) (fun a ha => C.toC' a (hv.perm.mem_iff.1 ha)) b'
      rw [map_sub, e1, e2, map_sub, map_sub]; rfl
    have ho' : c (off (H.len s) E.top t' - off (H.len s) E.bottom b') = C.Ψ (C.c' (off (H.len s) E.top t' - off (H.len s) E.bottom b')) := by
      have e1 := off_hom (φ := c) (ψ := C.Ψ.toAddMonoidHom.comp C.c') C.toC t'
      have e2 := off_hom (φ := c) (ψ := C.Ψ.toAddMonoidHom.comp C.c') (l := E.bottom) (fun a ha => C.toC a (hv.perm.mem_iff.1 ha)) b'
      rw [map_sub, e1, e2, map_sub, map_sub]; rfl
    have hz : C.c' (off (H.len s) E.top t' - off (H.len s) E.bottom b') = 0 ↔ c (off (H.len s) E.top t' - off (H.len s) E.bottom b') = 0 :=
      ⟨fun h0 => by rw [ho', h0, map_zero], fun h0 => by rw [ho, h0, map_zero]⟩
    have hg : ∀ a, C.c' ((H.abs E s).transl a) = C.Φ (c ((H.abs E s).transl a)) := transl_hom (φ := C.c') (ψ := C.Φ.toAddMonoidHom.comp c) hv C.toC'
    have hg' : ∀ a, c ((H.abs E s).transl a) = C.Ψ (C.c' ((H.abs E s).transl a)) := transl_hom (φ := c) (ψ := C.Ψ.toAddMonoidHom.comp C.c') hv C.toC
    refine and_congr (not_congr hz) (not_congr (exists_congr (fun x => and_congr_right (fun _ => and_congr_right (fun _ => ?_)))))
    exact ⟨fun hx => solution_of_linear C.Ψ hg' ho' hx, fun hx => solution_of_linear C.Φ hg ho hx⟩
  · unfold IET.boshernitzanNoSaddleConnection₂ IET.boshernitzanSaddleConnectionValues
    rw [h.top, h.bottom]
    cases ht : IET.nextLabel t F.top with
    | error e => rfl
    | ok t' =>
      cases t' with
      | none => rfl
      | some t' =>
        simp only [bind, Except.bind]
        cases hb : IET.nextLabel b F.bottom with
        | error e => rfl
        | ok b' =>
          cases b' with
          | none => rfl
          | some b' => exact absurd ⟨t', b', ht, hb⟩ hn

theorem Alike.noSaddle (hf : H.Coordinates f) (hc : ∀ x, c x = 0 → x = 0) {L : PPL} (hL : L.Lawful) (h : Alike H R E F s) :
    E.boshernitzanNoSaddleConnection L (O.rebase f) s = F.boshernitzanNoSaddleConnection L O s := by
  simp only [IET.boshernitzanNoSaddleConnection, IET.size, h.top, h.bottom, h.noSaddle₂ hf hc hL]
  rfl

end saddle

/-! ### Decompositions that differ in caches and trackers -/

section looks

omit [CommRing T] [LinearOrder T] [IsStrictOrderedRing T]

/-- Components that look the same. -/
structure Comp.Looks (Q : IET T → IET T → Prop) (x y : Comp T) : Prop where
  top : x.iet.top = y.iet.top
  bottom : x.iet.bottom = y.iet.bottom
  swapped : x.iet.swapped = y.iet.swapped
  cylinder : x.cylinder = y.cylinder
  withoutPeriodicTrajectory : x.withoutPeriodicTrajectory = y.withoutPeriodicTrajectory
  keane : x.keane = y.keane
  iet : Q x.iet y.iet

/-- Decompositions that look the same; the IETs are related by `Q`. -/
structure Decomp.Looks (Q : IET T → IET T → Prop) (D D' : Decomp σ T) : Prop where
  lengths : D.lengths = D'.lengths
  comps : List.Forall₂ (Comp.Looks Q) D.comps D'.comps

variable {Q : IET T → IET T → Prop} {D D' : Decomp σ T}

theorem Decomp.Looks.comp (h : D.Looks Q D') (i : ℕ) : RelM (Comp.Looks Q) (D.comp i) (D'.comp i) := by
  have hl := h.comps.length_eq
  simp only [Decomp.comp]
  by_cases hi : i < D.comps.length
  · rw [List.getElem?_eq_getElem hi, List.getElem?_eq_getElem (hl ▸ hi)]
    exact (List.forall₂_iff_get.1 h.comps).2 i hi (hl ▸ hi)
  · rw [List.getElem?_eq_none (by omega), List.getElem?_eq_none (by omega)]
    exact rfl

theorem Comp.Looks.topContour {x y : Comp T} (h : x.Looks Q y) : x.topContour = y.topContour := by
  simp only [Comp.topContour, h.top, h.bottom, h.swapped]

theorem Comp.Looks.bottomContour {x y : Comp T} (h : x.Looks Q y) : x.bottomContour = y.bottomContour := by
  simp only [Comp.bottomContour, h.top, h.bottom, h.swapped]

theorem RelM.eq {α : Type} {x y : M α} (h : RelM (fun a b => a = b) x y) : x = y := by
  cases x with
  | error e => cases y with
    | error e' => exact congrArg _ h
    | ok b => exact h.elim
  | ok a => cases y with
    | error e' => exact h.elim
    | ok b => exact congrArg _ h

theorem Decomp.Looks.connections (h : D.Looks Q D') (l : Label) : D.connections l = D'.connections l := by simp only [Decomp.connections, h.lengths]

theorem Decomp.Looks.topContour (h : D.Looks Q D') (i : ℕ) : D.topContour i = D'.topContour i :=
  RelM.eq ((h.comp i).bind (fun x y hx => by rw [hx.topContour]; exact rfl))

theorem Decomp.Looks.bottomContour (h : D.Looks Q D') (i : ℕ) : D.bottomContour i = D'.bottomContour i :=
  RelM.eq ((h.comp i).bind (fun x y hx => by rw [hx.bottomContour]; exact rfl))

theorem Decomp.Looks.cross (h : D.Looks Q D') (e : HalfEdge) : D.cross e = D'.cross e := by
  simp only [Decomp.cross, Decomp.heLeft, Decomp.heRight, h.connections]

theorem Decomp.Looks.component (h : D.Looks Q D') (e : HalfEdge) : D.component e = D'.component e := by
  simp only [Decomp.component, h.topContour, h.bottomContour]

theorem Decomp.Looks.makeAtTop (h : D.Looks Q D') (l : Label) : D.makeAtTop l = D'.makeAtTop l := by simp only [Decomp.makeAtTop, h.connections]

theorem Decomp.Looks.makeAtBottom (h : D.Looks Q D') (l : Label) : D.makeAtBottom l = D'.makeAtBottom l := by simp only [Decomp.makeAtBottom, h.connections]

theorem RelM.refl {α : Type} (x : M α) : RelM (fun a b => a = b) x x := RelM.of_eq rfl

theorem Decomp.Looks.left (h : D.Looks Q D') (i : ℕ) : D.left i = D'.left i := by
  refine RelM.eq ((h.comp i).bind (fun x y hx => ?_))
  rw [hx.topContour, hx.bottomContour]
  simp only [h.connections]
  exact RelM.refl _

theorem Decomp.Looks.right (h : D.Looks Q D') (i : ℕ) : D.right i = D'.right i := by
  refine RelM.eq ((h.comp i).bind (fun x y hx => ?_))
  rw [hx.topContour, hx.bottomContour]
  simp only [h.connections]
  exact RelM.refl _

theorem Decomp.Looks.walkAlong (h : D.Looks Q D') (i : ℕ) (top : Bool) (dst : Label) : ∀ l, D.walkAlong i top dst l = D'.walkAlong i top dst l
  | [] => rfl
  | a :: l => by simp only [Decomp.walkAlong, Decomp.crossReversed, h.cross, Decomp.Looks.walkAlong h i top dst l]

theorem Decomp.Looks.walkClockwise (h : D.Looks Q D') : ∀ (n : ℕ) (a b : HalfEdge), D.walkClockwise n a b = D'.walkClockwise n a b
  | 0, _, _ => rfl
  | n + 1, a, b => by
    have ih := Decomp.Looks.walkClockwise h n
    unfold Decomp.walkClockwise
    simp only [h.component, ih, h.walkAlong]
    refine RelM.eq ((RelM.refl _).bind ?_)
    rintro i _ rfl
    refine (RelM.refl _).bind ?_
    rintro j _ rfl
    refine (RelM.refl _).bind ?_
    rintro ⟨⟩ _ -
    refine (h.comp i).bind (fun x y hx => ?_)
    rw [hx.topContour, hx.bottomContour, hx.top, hx.bottom]
    exact RelM.refl _

theorem Decomp.Looks.setComp (h : D.Looks Q D') (i : ℕ) {x y : Comp T} (hx : x.Looks Q y) : (D.setComp i x).Looks Q (D'.setComp i y) :=
  ⟨h.lengths, forall₂_set h.comps (fun _ _ _ _ _ _ h => h) hx⟩

theorem Decomp.Looks.modify (h : D.Looks Q D') (l : Label) (g : Conns → Conns) : RelM (Decomp.Looks Q) (D.modify l g) (D'.modify l g) := by
  unfold Decomp.modify
  rw [h.lengths]
  refine (RelM.refl _).bind ?_
  rintro m _ rfl
  exact ⟨rfl, h.comps⟩

theorem Decomp.Looks.registerSeparating (h : D.Looks Q D') (i : ℕ) (conn : Conn) (j : ℕ) :
    RelM (Decomp.Looks Q) (D.registerSeparating i conn j) (D'.registerSeparating i conn j) := by
  unfold Decomp.registerSeparating
  refine (RelM.refl _).bind ?_
  rintro ⟨⟩ _ -
  refine (RelM.refl _).bind ?_
  rintro ⟨⟩ _ -
  refine (h.comp i).bind (fun x y hx => ?_)
  rw [hx.bottom]
  refine (RelM.refl _).bind ?_
  rintro l _ rfl
  refine (h.modify l _).bind (fun D₁ D₁' h₁ => ?_)
  refine (h₁.comp j).bind (fun x y hx => ?_)
  rw [hx.bottom]
  refine (RelM.refl _).bind ?_
  rintro l _ rfl
  refine (h₁.modify l _).bind (fun D₂ D₂' h₂ => ?_)
  rw [h₂.right, h₂.left]
  refine (RelM.refl _).bind ?_
  rintro l _ rfl
  refine (RelM.refl _).bind ?_
  rintro ⟨⟩ _ -
  refine (RelM.refl _).bind ?_
  rintro l _ rfl
  refine (RelM.refl _).bind ?_
  rintro ⟨⟩ _ -
  exact h₂

theorem Decomp.Looks.separating (h : D.Looks Q D') (i : ℕ) (b t : Label) {A : IET T} (hA : Q A A) :
    RelM (fun x y => x.1 = y.1 ∧ x.2.Looks Q y.2) (D.separating i b t A) (D'.separating i b t A) := by
  unfold Decomp.separating
  refine (h.comp i).bind (fun x y hx => ?_)
  rw [hx.topContour, hx.bottomContour]
  simp only [h.walkClockwise, h.makeAtBottom, h.makeAtTop, h.comps.length_eq]
  refine (RelM.refl _).bind ?_
  rintro l _ rfl
  refine (RelM.refl _).bind ?_
  rintro l _ rfl
  refine (RelM.refl _).bind ?_
  rintro l _ rfl
  refine (RelM.refl _).bind ?_
  rintro l _ rfl
  refine (RelM.refl _).bind ?_
  rintro l _ rfl
  refine (Decomp.Looks.registerSeparating (Q := Q) ?_ i _ _).bind (fun D₁ D₁' h₁ => ⟨rfl, h₁⟩)
  refine ⟨h.lengths, List.rel_append h.comps ?_⟩
  exact .cons ⟨rfl, rfl, rfl, rfl, rfl, rfl, hA⟩ .nil

theorem Decomp.Looks.nonSeparating (h : D.Looks Q D') (i : ℕ) (b t : Label) :
    RelM (fun x y => x.1 = y.1 ∧ x.2.Looks Q y.2) (D.nonSeparating i b t) (D'.nonSeparating i b t) := by
  unfold Decomp.nonSeparating
  simp only [h.cross, h.makeAtBottom, h.makeAtTop]
  refine (RelM.refl _).bind ?_
  rintro ⟨⟩ _ -
  refine (RelM.refl _).bind ?_
  rintro l _ rfl
  refine (RelM.refl _).bind ?_
  rintro l _ rfl
  refine (RelM.refl _).bind ?_
  rintro l _ rfl
  refine (RelM.refl _).bind ?_
  rintro l _ rfl
  refine (h.comp i).bind (fun x y hx => ?_)
  rw [hx.top]
  refine (RelM.refl _).bind ?_
  rintro l _ rfl
  refine (RelM.refl _).bind ?_
  rintro ⟨⟩ _ -
  refine (h.modify _ _).bind (fun D₁ D₁' h₁ => ?_)
  refine (h₁.modify _ _).bind (fun D₂ D₂' h₂ => ?_)
  rw [h₂.connections]
  refine (RelM.refl _).bind ?_
  rintro l _ rfl
  refine (h₂.modify _ _).bind (fun D₃ D₃' h₃ => ?_)
  refine (h₃.modify _ _).bind (fun D₄ D₄' h₄ => ?_)
  rw [h₄.left]
  refine (RelM.refl _).bind ?_
  rintro l _ rfl
  refine (RelM.refl _).bind ?_
  rintro ⟨⟩ _ -
  exact ⟨rfl, h₄⟩

theorem Decomp.Looks.conclude (h : D.Looks Q D') (i : ℕ) (step : InductionStep T) (hA : ∀ A ∈ step.additional, Q A A) :
    RelM (fun x y => x.1 = y.1 ∧ x.2.Looks Q y.2) (D.conclude i step) (D'.conclude i step) := by
  unfold Decomp.conclude
  refine (h.comp i).bind (fun x y hx => ?_)
  obtain ⟨r, conn, add⟩ := step
  cases r <;> simp only
  case cylinder => exact ⟨rfl, h.setComp i { hx with cylinder := rfl, withoutPeriodicTrajectory := rfl, keane := rfl }⟩
  case limitReached => exact ⟨rfl, h⟩
  case withoutPeriodicTrajectoryBoshernitzan => exact ⟨rfl, h.setComp i { hx with cylinder := rfl, withoutPeriodicTrajectory := rfl }⟩
  case withoutPeriodicTrajectoryAutoSimilar => exact ⟨rfl, h.setComp i { hx with cylinder := rfl, withoutPeriodicTrajectory := rfl }⟩
  case separatingConnection =>
    cases conn with
    | none => exact rfl
    | some p => cases add with
      | none => exact rfl
      | some A => exact h.separating i p.1 p.2 (hA A rfl)
  case nonSeparatingConnection =>
    cases conn with
    | none => exact rfl
    | some p => exact h.nonSeparating i p.1 p.2

end looks

/-! ### Steps of decompositions -/

/-- The coefficients for lengths with connections. -/
def LWC.lift (f : List Label → σ → M (List (List ℚ))) : List Label → LWC σ → M (List (List ℚ)) := fun l s => f l s.inner

theorem LWC.ops_rebase : LWC.ops (O.rebase f) = (LWC.ops O).rebase (LWC.lift f) := rfl

theorem LawfulLengths.Coordinates.lift (h : H.Coordinates f) : (LWC.lawful H).Coordinates (LWC.lift f) :=
  fun s l hs hl hn => h s.inner l hs.1 (fun x hx => (hl x hx).1) hn

section steps

variable {E F : IET T} {s : LWC σ}

theorem Alike.cost (hf : H.Coordinates f) (hc : ∀ x, c x = 0 → x = 0) (h : Alike (LWC.lawful H) (Relation.TransGen RauzyStep) E F s) :
    RelM (fun x y => x.1 = y.1 ∧ Alike (LWC.lawful H) (Relation.TransGen RauzyStep) x.2 y.2 s) (Decomp.boshernitzanCost (O.rebase f) E s) (Decomp.boshernitzanCost O F s) := by
  unfold Decomp.boshernitzanCost
  rw [LWC.ops_rebase]
  refine (h.safInvariant hf.lift hc).bind ?_
  rintro ⟨v, E'⟩ ⟨w, F'⟩ ⟨h1, h2⟩
  refine ⟨?_, h2⟩
  simp only [List.all_eq_true, decide_eq_true_eq, h1]

theorem Alike.chunks (hf : H.Coordinates f) (hc : ∀ x, c x = 0 → x = 0) {L : PPL} (hL : L.Lawful) (cost : Option ℤ) : ∀ (n : ℕ) (limit : ℤ) {E F : IET T} {s : LWC σ},
    Alike (LWC.lawful H) (Relation.TransGen RauzyStep) E F s →
    RelM (fun x y => x.1 = y.1 ∧ x.2.2 = y.2.2 ∧ (∀ R ∈ x.1.additional, Alike (LWC.lawful H) (Relation.TransGen RauzyStep) R R y.2.2) ∧
        Alike (LWC.lawful H) (Relation.TransGen RauzyStep) x.2.1 y.2.1 y.2.2)
      (Decomp.chunks L (O.rebase f) cost n limit E s) (Decomp.chunks L O cost n limit F s)
  | 0, _, _, _, _, _ => rfl
  | n + 1, limit, E, F, s, h => by
    unfold Decomp.chunks
    rw [LWC.ops_rebase]
    refine (h.induce hf.lift hc hL 0 _).bind ?_
    rintro ⟨st, E', s'⟩ ⟨st', F', t'⟩ ⟨h1, h2, h3, h4⟩
    simp only at h1 h2 h3 h4
    subst h1 h2
    simp only
    by_cases hr : st.result = .limitReached ∧ limit - Decomp.chunkSize cost limit ≠ 0
    · rw [if_pos hr, if_pos hr]
      exact Alike.chunks hf hc hL cost n _ h4
    · rw [if_neg hr, if_neg hr]
      exact ⟨rfl, rfl, h3, h4⟩

/-- Decompositions that are alike: they look the same. -/
def Decomp.Like (H : LawfulLengths O c ε) (D D' : Decomp σ T) : Prop :=
  D.Looks (fun E F => Verif.Alike (LWC.lawful H) (Relation.TransGen RauzyStep) E F D'.lengths) D'

theorem Decomp.Looks.mono {Q Q' : IET T → IET T → Prop} {D D' : Decomp σ T} (h : D.Looks Q D') (hQ : ∀ x ∈ D.comps, ∀ y ∈ D'.comps, Q x.iet y.iet → Q' x.iet y.iet) :
    D.Looks Q' D' := by
  refine ⟨h.lengths, ?_⟩
  have h2 := h.comps
  rw [List.forall₂_iff_get] at h2 ⊢
  refine ⟨h2.1, fun i h1 h2' => ?_⟩
  have := h2.2 i h1 h2'
  exact { this with iet := hQ _ (List.get_mem _ _) _ (List.get_mem _ _) this.iet }

/-- The state of the lengths matters only for the lengths of the labels. -/
theorem Alike.change {s' : LWC σ} (h : Alike (LWC.lawful H) (Relation.TransGen RauzyStep) E F s) (h1 : s'.inner = s.inner) (h2 : s'.conns.keys = s.conns.keys) (h3 : s'.stack = s.stack) :
    Alike (LWC.lawful H) (Relation.TransGen RauzyStep) E F s' := by
  refine h.frame (LWC.good_congr h.good h1 h3 h2) ?_ ?_
  · funext a
    simp only [LWC.lawful, h1, h2]
  · intro a _
    simp only [LWC.lawful, h1]

variable {P : Type} [CommRing P] [LinearOrder P] [IsStrictOrderedRing P] {ι : T →+ P} {A₀ : AIET T} {R : List Conn} {au : Bool → Prop} {D D' : Decomp σ T}

theorem Decomp.conclude_lengths {i : ℕ} {step : InductionStep T} {st : DStep} (h : D.conclude i step = .ok (st, D')) :
    D'.lengths.inner = D.lengths.inner ∧ D'.lengths.conns.keys = D.lengths.conns.keys ∧ D'.lengths.stack = D.lengths.stack := by
  simp only [Decomp.conclude, bindM_ok] at h
  obtain ⟨x, hx, h⟩ := h
  obtain ⟨r, conn, add⟩ := step
  cases r <;> simp only at h
  case cylinder => cases h; exact ⟨rfl, rfl, rfl⟩
  case limitReached => cases h; exact ⟨rfl, rfl, rfl⟩
  case withoutPeriodicTrajectoryBoshernitzan => cases h; exact ⟨rfl, rfl, rfl⟩
  case withoutPeriodicTrajectoryAutoSimilar => cases h; exact ⟨rfl, rfl, rfl⟩
  case separatingConnection =>
    cases conn with
    | none => cases h
    | some p => cases add with
      | none => cases h
      | some A =>
        obtain ⟨a1, -⟩ := Decomp.separating_alike h
        exact ⟨a1.lengths.1, a1.lengths.3, a1.lengths.2⟩
  case nonSeparatingConnection =>
    cases conn with
    | none => cases h
    | some p =>
      obtain ⟨a1, -⟩ := Decomp.nonSeparating_alike h
      exact ⟨a1.lengths.1, a1.lengths.3, a1.lengths.2⟩

theorem forall₂_eraseIdx {α β : Type} {R : α → β → Prop} : ∀ {l : List α} {l' : List β} {i : ℕ}, List.Forall₂ R l l' → List.Forall₂ R (l.eraseIdx i) (l'.eraseIdx i)
  | [], _, _, .nil => .nil
  | _ :: _, _ :: _, 0, .cons _ h => h
  | _ :: _, _ :: _, _ + 1, .cons h h' => .cons h (forall₂_eraseIdx h')

theorem Decomp.Looks.others {Q : IET T → IET T → Prop} (h : D.Looks Q D') (i : ℕ) : D.others i = D'.others i := by
  unfold Decomp.others
  have h2 : List.Forall₂ (Comp.Looks Q) (D.comps.eraseIdx i) (D'.comps.eraseIdx i) := by
    exact forall₂_eraseIdx h.comps
  generalize D.comps.eraseIdx i = l at h2
  generalize D'.comps.eraseIdx i = l' at h2
  induction h2 with
  | nil => rfl
  | cons hx _ ih => rw [List.map_cons, List.map_cons, ih]; simp only [IET.ctx, hx.top, hx.swapped]

theorem RelM.with_right {α β : Type} {R : α → β → Prop} {x : M α} {y : M β} (h : RelM R x y) : RelM (fun a b => R a b ∧ y = .ok b) x y := by
  cases x with
  | error e => cases y with
    | error e' => exact h
    | ok b => exact h.elim
  | ok a => cases y with
    | error e' => exact h.elim
    | ok b => exact ⟨h, rfl⟩

theorem Decomp.Like.bounded (hf : H.Coordinates f) (hc : ∀ x, c x = 0 → x = 0) (hι : StrictMono ι) {L : PPL} (hL : L.Lawful) (h : Decomp.Like H D D')
    (hinv : D'.Inv H ι A₀ R au) (i : ℕ) {limit : ℤ} (hlimit : limit ≠ -1) :
    RelM (fun x y => x.1 = y.1 ∧ Decomp.Like H x.2 y.2) (D.decompositionStepBounded L (O.rebase f) limit i) (D'.decompositionStepBounded L O limit i) := by
  unfold Decomp.decompositionStepBounded
  cases hi : D'.comps[i]? with
  | none =>
    have := h.comp i
    rw [show D'.comp i = .error .ub by simp only [Decomp.comp, hi]] at this ⊢
    cases hD : D.comp i with
    | ok x => rw [hD] at this; exact this.elim
    | error e => rw [hD] at this; exact this
  | some y =>
    obtain ⟨x, hx, hxy⟩ := (h.comp i).symm.ok_left (Decomp.comp_ok hi)
    rw [hx, Decomp.comp_ok hi, h.lengths, h.others]
    refine RelM.bind (R := fun a b => a = x ∧ b = y) ⟨rfl, rfl⟩ ?_
    rintro x' y' ⟨e5, e6⟩
    rw [e5, e6]
    clear e5 e6
    rw [hxy.cylinder, hxy.keane]
    refine (RelM.refl _).bind ?_
    rintro ⟨⟩ _ -
    have hs : Verif.Alike (LWC.lawful H) (Relation.TransGen RauzyStep) x.iet y.iet { D'.lengths with others := D'.others i } := hxy.iet.change rfl rfl rfl
    have hy := List.mem_of_getElem? hi
    have e1 := boshernitzanCost_spec H hs.good
    obtain ⟨⟨cost, E⟩, e2, e3, e4⟩ := (hs.cost hf hc).symm.ok_left e1
    dsimp only at e1 e2 e3 e4 ⊢
    have e3' := e3.symm
    rw [e3'] at e1
    rw [e1, e2]
    refine RelM.bind (R := fun a b => a = (cost, E) ∧ b = (cost, _)) ⟨rfl, rfl⟩ ?_
    rintro x' y' ⟨e5, e6⟩
    rw [e5, e6]
    clear e5 e6
    simp only
    obtain ⟨step, F', s', k1, -, k3, k4, k5, -⟩ := chunks_spec H hL cost (by
      intro v hv
      rw [← e3'] at hv
      split at hv
      · cases hv
      · cases hv; norm_num) (limit.toNat + 1) limit _ _ hlimit (Nat.lt_succ_self _) e4.good
    obtain ⟨⟨step', E', s''⟩, k7, k8, k9, k10, k11⟩ := (e4.chunks hf hc hL cost (limit.toNat + 1) limit).symm.ok_left k1
    simp only at k8 k9 k10 k11
    subst k8 k9
    rw [k1, k7]
    refine RelM.bind (R := fun a b => a = (step', E', s'') ∧ b = (step', F', s'')) ⟨rfl, rfl⟩ ?_
    rintro x' y' ⟨e5, e6⟩
    rw [e5, e6]
    clear e5 e6
    simp only
    have hl : Decomp.Looks (fun E F => Verif.Alike (LWC.lawful H) (Relation.TransGen RauzyStep) E F s'')
        { D.setComp i ⟨E', y.cylinder, x.withoutPeriodicTrajectory, y.keane⟩ with lengths := s'' } { D'.setComp i { y with iet := F' } with lengths := s'' } := by
      refine ⟨rfl, ?_⟩
      simp only [Decomp.setComp]
      refine forall₂_set h.comps ?_ ⟨k11.top, k11.bottom, k11.swapped, rfl, hxy.withoutPeriodicTrajectory, rfl, k11⟩
      intro j a b hj ha hb hab
      have hfr : ∀ l ∈ b.iet.top, H.len s''.inner l = H.len D'.lengths.inner l := by
        intro l hl
        refine k5 l ?_
        exact pairwise_getElem_ne (fun _ _ h a ha hb => h a hb ha) hinv.disjoint hb hi hj l hl
      exact { hab with iet := hab.iet.frame ((hinv.good b (List.mem_of_getElem? hb)).frame k3.ok k4 hfr) k4 hfr }
    refine (hl.conclude i step' (fun A hA => k10 A hA)).with_right.mono ?_
    rintro ⟨st, D₁⟩ ⟨st', D₁'⟩ ⟨⟨q1, q2⟩, q3⟩
    refine ⟨q1, q2.mono (fun a _ b _ hab => ?_)⟩
    obtain ⟨l1, l2, l3⟩ := Decomp.conclude_lengths q3
    exact Verif.Alike.change hab l1 l2 l3

theorem Decomp.Like.comp_or (h : Decomp.Like H D D') (i : ℕ) : (D.comp i = .error .ub ∧ D'.comp i = .error .ub) ∨
    ∃ x y, D.comp i = .ok x ∧ D'.comp i = .ok y ∧ D'.comps[i]? = some y ∧ x.Looks (fun E F => Verif.Alike (LWC.lawful H) (Relation.TransGen RauzyStep) E F D'.lengths) y := by
  cases hi : D'.comps[i]? with
  | none =>
    left
    have := h.comp i
    rw [show D'.comp i = .error .ub by simp only [Decomp.comp, hi]] at this ⊢
    cases hD : D.comp i with
    | ok x => rw [hD] at this; exact this.elim
    | error e => rw [hD] at this; cases (show e = .ub from this); exact ⟨rfl, rfl⟩
  | some y =>
    right
    obtain ⟨x, hx, hxy⟩ := (h.comp i).symm.ok_left (Decomp.comp_ok hi)
    exact ⟨x, y, hx, Decomp.comp_ok hi, rfl, hxy⟩

theorem Decomp.Like.unlimited (hf : H.Coordinates f) (hc : ∀ x, c x = 0 → x = 0) (hι : StrictMono ι) {L : PPL} (hL : L.Lawful) {cost : Option ℤ}
    (hcost : ∀ v, cost = some v → 0 ≤ v) {i : ℕ} : ∀ (n : ℕ) (limit : ℤ) {D D' : Decomp σ T}, 0 ≤ limit → Decomp.Like H D D' → D'.Inv H ι A₀ R au →
    RelM (fun x y => x.1 = y.1 ∧ Decomp.Like H x.2 y.2) (Decomp.unlimited L (O.rebase f) cost i n limit D) (Decomp.unlimited L O cost i n limit D')
  | 0, _, _, _, _, _, _ => rfl
  | n + 1, limit, D, D', hlim, h, hinv => by
    unfold Decomp.unlimited
    refine (h.bounded hf hc hι hL hinv i (by omega)).with_right.bind ?_
    rintro ⟨st, D₁⟩ ⟨st', D₁'⟩ ⟨⟨e, h1⟩, h2⟩
    simp only at e h1
    subst e
    simp only
    by_cases hr : st.result = .limitReached
    · have hn : ¬ st.result ≠ .limitReached := fun g => g hr
      rw [if_neg hn, if_neg hn]
      have hinv' : D₁'.Inv H ι A₀ R au := by
        rcases h.comp_or i with ⟨-, g⟩ | ⟨x, y, -, -, hy, -⟩
        · simp only [Decomp.decompositionStepBounded, g, bind, Except.bind] at h2
          cases h2
        · obtain ⟨st₂, D₂, g2, g3, g4, -⟩ := decompositionStepBounded_spec hι hL hinv hy (limit := limit) (by omega)
          rw [h2] at g2
          cases g2
          obtain ⟨x', e1, e2, e3, e4, e5⟩ := g4.limit hr
          rw [e5, Option.toList_none, List.append_nil] at g3
          simpa [AutoReport, hr] using g3
      cases cost with
      | some v => exact Decomp.Like.unlimited hf hc hι hL hcost n v (hcost v rfl) h1 hinv'
      | none =>
        simp only
        by_cases hm : 2 * (limit + 1) ≤ Decomp.intMax
        · rw [if_pos hm, if_pos hm]
          exact Decomp.Like.unlimited hf hc hι hL hcost n _ (by omega) h1 hinv'
        · rw [if_neg hm, if_neg hm]
          exact rfl
    · rw [if_pos hr, if_pos hr]
      exact ⟨rfl, h1⟩

/-- A step. -/
theorem Decomp.Like.step (hf : H.Coordinates f) (hc : ∀ x, c x = 0 → x = 0) (hι : StrictMono ι) {L : PPL} (hL : L.Lawful) (h : Decomp.Like H D D')
    (hinv : D'.Inv H ι A₀ R au) (fuel : ℕ) (limit : ℤ) (i : ℕ) :
    RelM (fun x y => x.1 = y.1 ∧ Decomp.Like H x.2 y.2) (D.decompositionStep L (O.rebase f) fuel limit i) (D'.decompositionStep L O fuel limit i) := by
  unfold Decomp.decompositionStep
  by_cases hl : limit = -1
  · rw [if_pos hl, if_pos hl]
    rcases h.comp_or i with ⟨g1, g2⟩ | ⟨x, y, g1, g2, hy, hxy⟩
    · rw [g1, g2]; exact rfl
    · rw [g1, g2, h.lengths]
      refine RelM.bind (R := fun a b => a = x ∧ b = y) ⟨rfl, rfl⟩ ?_
      rintro x' y' ⟨e5, e6⟩
      rw [e5, e6]
      clear e5 e6
      have hcy := hxy.cylinder
      have hke := hxy.keane
      rw [hcy, hke]
      refine (RelM.refl _).bind ?_
      rintro ⟨⟩ _ -
      have e1 := boshernitzanCost_spec H hxy.iet.good
      obtain ⟨⟨cost, E⟩, e2, e3, e4⟩ := (hxy.iet.cost hf hc).symm.ok_left e1
      dsimp only at e1 e2 e3 e4 ⊢
      have e3' := e3.symm
      rw [e3'] at e1
      rw [e1, e2]
      refine RelM.bind (R := fun a b => a = (cost, E) ∧ b = (cost, _)) ⟨rfl, rfl⟩ ?_
      rintro x' y' ⟨e5, e6⟩
      rw [e5, e6]
      clear e5 e6
      simp only
      refine Decomp.Like.unlimited hf hc hι hL ?_ fuel 0 le_rfl ?_ (hinv.setCache hy)
      · intro v hv
        rw [e3] at hv
        split at hv
        · cases hv
        · cases hv; norm_num
      · exact Decomp.Looks.setComp h i ⟨e4.top, e4.bottom, e4.swapped, rfl, hxy.withoutPeriodicTrajectory, rfl, e4⟩
  · rw [if_neg hl, if_neg hl]
    exact h.bounded hf hc hι hL hinv i hl

/-- Whatever the limit, the invariant still holds after a step. -/
theorem Decomp.Inv.step (hι : StrictMono ι) {L : PPL} (hL : L.Lawful) (hinv : D.Inv H ι A₀ R au) {fuel : ℕ} {limit : ℤ} {i : ℕ} {st : DStep}
    (h : D.decompositionStep L O fuel limit i = .ok (st, D')) : ∃ R au, D'.Inv H ι A₀ R au := by
  have hi : ∃ x, D.comps[i]? = some x := by
    cases hx : D.comps[i]? with
    | some x => exact ⟨x, rfl⟩
    | none =>
      exfalso
      simp only [Decomp.decompositionStep, Decomp.decompositionStepBounded, Decomp.comp, hx, bind, Except.bind] at h
      split at h <;> cases h
  obtain ⟨x, hx⟩ := hi
  rcases decompositionStep_spec hι hL hinv hx fuel limit with ⟨step', D'', g1, g2, _⟩ | ⟨_, g | ⟨g, _⟩⟩
  · rw [h] at g1
    cases g1
    exact ⟨_, _, g2⟩
  · rw [h] at g; cases g
  · rw [h] at g; cases g

/-- Two decompositions that are alike, and the second one can be reached. -/
def Decomp.Pair (H : LawfulLengths O c ε) (D D' : Decomp σ T) : Prop :=
  Decomp.Like H D D' ∧ ∃ A₀ R au, D'.Inv H (AddMonoidHom.id T) A₀ R au

theorem Decomp.Pair.step (hf : H.Coordinates f) (hc : ∀ x, c x = 0 → x = 0) {L : PPL} (hL : L.Lawful) (h : Decomp.Pair H D D') (fuel : ℕ) (limit : ℤ) (i : ℕ) :
    RelM (fun x y => x.1 = y.1 ∧ Decomp.Pair H x.2 y.2) (D.decompositionStep L (O.rebase f) fuel limit i) (D'.decompositionStep L O fuel limit i) := by
  obtain ⟨h1, A₀, R, au, h2⟩ := h
  refine (h1.step hf hc (ι := AddMonoidHom.id T) (fun _ _ h => h) hL h2 fuel limit i).with_right.mono ?_
  rintro ⟨st, D₁⟩ ⟨st', D₁'⟩ ⟨⟨e, h3⟩, h4⟩
  obtain ⟨R', au', h5⟩ := h2.step (fun _ _ h => h) hL h4
  exact ⟨e, h3, A₀, R', au', h5⟩

theorem Decomp.Pair.decomposeComponent (hf : H.Coordinates f) (hc : ∀ x, c x = 0 → x = 0) {L : PPL} (hL : L.Lawful) {target : Comp T → Bool}
    (ht : ∀ Q x y, Comp.Looks Q x y → target x = target y) (limit : ℤ) : ∀ (n i : ℕ) {D D' : Decomp σ T}, Decomp.Pair H D D' →
    RelM (fun x y => x.1 = y.1 ∧ Decomp.Pair H x.2 y.2) (D.decomposeComponent L (O.rebase f) target limit n i) (D'.decomposeComponent L O target limit n i)
  | 0, _, _, _, _ => rfl
  | n + 1, i, D, D', h => by
    unfold Decomp.decomposeComponent
    refine (h.1.comp i).bind (fun x y hxy => ?_)
    rw [ht _ x y hxy]
    by_cases h0 : target y = true
    · rw [if_pos h0, if_pos h0]; exact ⟨rfl, h⟩
    · rw [if_neg h0, if_neg h0]
      refine (h.step hf hc hL n limit i).bind ?_
      rintro ⟨st, D₁⟩ ⟨st', D₁'⟩ ⟨e, h1⟩
      simp only at e h1
      subst e
      simp only
      by_cases hr : st.result = .limitReached
      · rw [if_pos hr, if_pos hr]; exact ⟨rfl, h1⟩
      · rw [if_neg hr, if_neg hr]
        cases st.additional with
        | none => exact Decomp.Pair.decomposeComponent hf hc hL ht limit n i h1
        | some j =>
          simp only
          refine (Decomp.Pair.decomposeComponent hf hc hL ht limit n j h1).bind ?_
          rintro ⟨a, D₂⟩ ⟨a', D₂'⟩ ⟨e2, h2⟩
          simp only at e2 h2
          subst e2
          refine (Decomp.Pair.decomposeComponent hf hc hL ht limit n i h2).bind ?_
          rintro ⟨b, D₃⟩ ⟨b', D₃'⟩ ⟨e3, h3⟩
          simp only at e3 h3
          subst e3
          exact ⟨rfl, h3⟩

theorem Decomp.Pair.decomposeAll (hf : H.Coordinates f) (hc : ∀ x, c x = 0 → x = 0) {L : PPL} (hL : L.Lawful) {target : Comp T → Bool}
    (ht : ∀ Q x y, Comp.Looks Q x y → target x = target y) (limit : ℤ) (fuel : ℕ) : ∀ (is : List ℕ) {D D' : Decomp σ T}, Decomp.Pair H D D' →
    RelM (fun x y => x.1 = y.1 ∧ Decomp.Pair H x.2 y.2) (D.decomposeAll L (O.rebase f) target limit fuel is) (D'.decomposeAll L O target limit fuel is)
  | [], _, _, h => ⟨rfl, h⟩
  | i :: is, D, D', h => by
    unfold Decomp.decomposeAll
    refine (h.decomposeComponent hf hc hL ht limit fuel i).bind ?_
    rintro ⟨a, D₂⟩ ⟨a', D₂'⟩ ⟨e2, h2⟩
    simp only at e2 h2
    subst e2
    cases a with
    | true => exact Decomp.Pair.decomposeAll hf hc hL ht limit fuel is h2
    | false => exact ⟨rfl, h2⟩

theorem Decomp.Pair.decompose (hf : H.Coordinates f) (hc : ∀ x, c x = 0 → x = 0) {L : PPL} (hL : L.Lawful) {target : Comp T → Bool}
    (ht : ∀ Q x y, Comp.Looks Q x y → target x = target y) (limit : ℤ) (fuel : ℕ) (h : Decomp.Pair H D D') :
    RelM (fun x y => x.1 = y.1 ∧ Decomp.Pair H x.2 y.2) (D.decompose L (O.rebase f) target limit fuel) (D'.decompose L O target limit fuel) := by
  unfold Decomp.decompose
  rw [h.1.comps.length_eq]
  exact h.decomposeAll hf hc hL ht limit fuel _

theorem Decomp.Pair.make {E : IET T} {s : σ} (hE : H.Ok E s) : ∃ D, Decomp.make (O.rebase f) E s = .ok D ∧ Decomp.make O E s = .ok D ∧ Decomp.Pair H D D := by
  obtain ⟨D, h1, h2, -, h3⟩ := Decomp.make_spec H (ι := AddMonoidHom.id T) (fun _ _ h => h) hE
  refine ⟨D, h1, h1, ⟨rfl, ?_⟩, _, _, _, h3⟩
  rw [h2]
  refine .cons ⟨rfl, rfl, rfl, rfl, rfl, rfl, Verif.Alike.fresh ?_⟩ .nil
  exact (h3.good _ (by rw [h2]; exact List.mem_cons_self)).ok

end steps

end Verif
