import Verif.Proofs.RelabelDecomp
import Verif.Examples

/-!
# Labels are only names (C70)

Two users describe the same lengths and the same interval exchange transformation.  The second user calls `ρ a` what the first user calls
`a`, i.e. the entries of the vector of lengths are in another order, and there might be entries that are not used at all.  Nothing that
the two users observe differs by more than the names of the labels.  There are no assumptions on the arithmetic of the lengths, on the
permutation, or on the linear programs that are solved.
-/

namespace Verif

set_option linter.unusedSectionVars false

open Relator

/-! ### Specification -/

/-- A separatrix with another name. -/
def Sep.rename (ρ : Label → Label) (s : Sep) : Sep := ⟨ρ s.label, s.parallel⟩

/-- A connection between separatrices with other names. -/
def Conn.rename (ρ : Label → Label) (c : Conn) : Conn := ⟨c.source.rename ρ, c.target.rename ρ⟩

/-- A half edge with another name. -/
def HalfEdge.rename (ρ : Label → Label) (h : HalfEdge) : HalfEdge := ⟨h.comp, ρ h.label, h.top⟩

/-- A half edge or connection with another name. -/
def Side.rename (ρ : Label → Label) : Side → Side
  | .edge h => .edge (h.rename ρ)
  | .conn c => .conn (c.rename ρ)

/-- A decomposition step for other names. -/
def DStep.rename (ρ : Label → Label) (x : DStep) : DStep :=
  ⟨x.result, x.connection.map (Conn.rename ρ), x.equivalent.map (List.map (Side.rename ρ)), x.additional⟩

/-- What a user sees of an IET: the labels at the top and at the bottom, and whether they have been swapped. -/
def IET.shown {T : Type} (E : IET T) : List Label × List Label × Bool := (E.top, E.bottom, E.swapped)

/-- The same with other names. -/
def renameShown (ρ : Label → Label) (x : List Label × List Label × Bool) : List Label × List Label × Bool := (x.1.map ρ, x.2.1.map ρ, x.2.2)

/-- What a user sees of an induction step. -/
def InductionStep.shown {T : Type} (x : InductionStep T) : Result × Option (Label × Label) × Option (List Label × List Label × Bool) :=
  (x.result, x.connection, x.additional.map IET.shown)

/-- The same with other names. -/
def renameStep (ρ : Label → Label) (x : Result × Option (Label × Label) × Option (List Label × List Label × Bool)) :
    Result × Option (Label × Label) × Option (List Label × List Label × Bool) :=
  (x.1, x.2.1.map (Prod.map ρ ρ), x.2.2.map (renameShown ρ))

/-- What a user sees of a component: its contours and its flags. -/
def Comp.shown {T : Type} (x : Comp T) : (List Label × List Label × Bool) × Option Bool × Option Bool × Option Bool :=
  (x.iet.shown, x.cylinder, x.withoutPeriodicTrajectory, x.keane)

/-- The calls that change a decomposition. -/
inductive RCall
  | decompositionStep (fuel : ℕ) (limit : ℤ) (i : ℕ)
  | decompose (fuel : ℕ) (limit : ℤ)
  | inject (h : HalfEdge) (left right : List (Label × Label))

namespace RCall

/-- The same call with other names. -/
def rename (ρ : Label → Label) : RCall → RCall
  | decompositionStep fuel limit i => decompositionStep fuel limit i
  | decompose fuel limit => decompose fuel limit
  | inject h left right => inject (h.rename ρ) (left.map (Prod.map ρ ρ)) (right.map (Prod.map ρ ρ))

/-- Only the given labels are used in a call. -/
def Uses (A : Set Label) : RCall → Prop
  | decompositionStep _ _ _ => True
  | decompose _ _ => True
  | inject h left right => h.label ∈ A ∧ (∀ p ∈ left, p.1 ∈ A ∧ p.2 ∈ A) ∧ ∀ p ∈ right, p.1 ∈ A ∧ p.2 ∈ A

variable {σ T : Type} [CommRing T] [LinearOrder T]

/-- Perform the call, with the default target for `decompose`. -/
def run (L : PPL) (O : LengthsOps σ T) (D : Decomp σ T) : RCall → M (Decomp σ T)
  | decompositionStep fuel limit i => (D.decompositionStep L O fuel limit i).map Prod.snd
  | decompose fuel limit => (D.decompose L O Decomp.defaultTarget limit fuel).map Prod.snd
  | inject h left right => (D.inject h left right).map Prod.snd

end RCall

variable {T : Type} [CommRing T] [LinearOrder T] [IsStrictOrderedRing T]

/-- Construct an IET and perform some operations on it and on the IETs split off from it. -/
def session (L : PPL) (A : Arith T) (fuel : ℕ) (lengths : List T) (top bottom : List Label) (ops : List Op) : M (World (SLengths T) T) := do
  let s ← SLengths.make lengths
  let E ← IET.mk? (SLengths.ops A) top bottom s
  ops.foldlM (fun w op => op.exec L (SLengths.ops A) fuel w) ⟨[E], s⟩

/-- Construct an IET, then a decomposition, and perform some calls on it. -/
def dsession (L : PPL) (A : Arith T) (lengths : List T) (top bottom : List Label) (calls : List RCall) : M (Decomp (SLengths T) T) := do
  let s ← SLengths.make lengths
  let E ← IET.mk? (SLengths.ops A) top bottom s
  let D ← Decomp.make (SLengths.ops A) E s
  calls.foldlM (fun D c => c.run L (SLengths.ops A) D) D

/-! ### From relations to functions -/

section

variable {ρ : Label → Label} {B : Set Label}

/-- `b` is the new name of `a`. -/
def Named (ρ : Label → Label) (B : Set Label) (a b : Label) : Prop := a ∈ B ∧ b = ρ a

theorem named_biUnique (hρ : Set.InjOn ρ B) : BiUnique (Named ρ B) := by
  constructor
  · rintro a b c ⟨h1, h2⟩ ⟨h3, h4⟩
    exact hρ h1 h3 (h2.symm.trans h4)
  · rintro a b c ⟨h1, h2⟩ ⟨h3, h4⟩
    rw [h2, h4]

theorem forall₂_to_map {α β : Type} {P : α → β → Prop} {f : α → β} (hP : ∀ a b, P a b → b = f a) {l : List α} {l' : List β}
    (h : List.Forall₂ P l l') : l' = l.map f := by
  induction h with
  | nil => rfl
  | cons h1 _ ih => rw [List.map_cons, ← ih, hP _ _ h1]

theorem forall₂_of_map {α β : Type} {P : α → β → Prop} {f : α → β} {l : List α} (hP : ∀ a ∈ l, P a (f a)) : List.Forall₂ P l (l.map f) := by
  induction l with
  | nil => exact .nil
  | cons a l ih => exact .cons (hP a (by simp)) (ih (fun b hb => hP b (by simp [hb])))

theorem OptRel.to_map {α β : Type} {P : α → β → Prop} {f : α → β} (hP : ∀ a b, P a b → b = f a) {x : Option α} {y : Option β}
    (h : OptRel P x y) : y = x.map f := by
  cases h with
  | none => rfl
  | some h => rw [Option.map_some, hP _ _ h]

theorem RelM.to_map {α β γ : Type} {P : α → β → Prop} {f : α → γ} {g : β → γ} (hP : ∀ a b, P a b → g b = f a) {x : M α} {y : M β}
    (h : RelM P x y) : y.map g = x.map f := by
  cases x with
  | error e => cases y with
    | error e' => rw [show e' = e from h.symm]; rfl
    | ok b => exact h.elim
  | ok a => cases y with
    | error e' => exact h.elim
    | ok b => exact congrArg Except.ok (hP a b h)

theorem RelM.cases {α β : Type} {P : α → β → Prop} {x : M α} {y : M β} (h : RelM P x y) :
    (∃ e, x = .error e ∧ y = .error e) ∨ ∃ a b, x = .ok a ∧ y = .ok b ∧ P a b := by
  cases x with
  | error e => cases y with
    | error e' => exact .inl ⟨e, rfl, by rw [show e' = e from h.symm]⟩
    | ok b => exact h.elim
  | ok a => cases y with
    | error e' => exact h.elim
    | ok b => exact .inr ⟨a, b, rfl, rfl, h⟩

theorem RelM.map_rel {α β γ δ : Type} {P : α → β → Prop} {S : γ → δ → Prop} {f : α → γ} {g : β → δ} (hf : ∀ a b, P a b → S (f a) (g b))
    {x : M α} {y : M β} (h : RelM P x y) : RelM S (x.map f) (y.map g) := by
  cases x with
  | error e => cases y with
    | error e' => exact h
    | ok b => exact h.elim
  | ok a => cases y with
    | error e' => exact h.elim
    | ok b => exact hf a b h

theorem named_list {l l' : List Label} (h : List.Forall₂ (Named ρ B) l l') : l' = l.map ρ := forall₂_to_map (fun _ _ h => h.2) h

theorem IET.Rel.shown {E F : IET T} (h : IET.Rel (Named ρ B) E F) : F.shown = renameShown ρ E.shown := by
  unfold IET.shown renameShown
  rw [named_list h.top, named_list h.bottom, h.swapped]

theorem InductionStep.Rel.shown {x y : InductionStep T} (h : InductionStep.Rel (Named ρ B) x y) : y.shown = renameStep ρ x.shown := by
  unfold InductionStep.shown renameStep
  rw [h.result, OptRel.to_map (f := Prod.map ρ ρ) (fun p q h => Prod.ext h.1.2 h.2.2) h.connection]
  congr 2
  have := h.additional
  generalize x.additional = u, y.additional = v at this
  cases this with
  | none => rfl
  | some h => exact congrArg some h.shown

theorem Sep.Rel.rename {x y : Sep} (h : Sep.Rel (Named ρ B) x y) : y = x.rename ρ := by
  obtain ⟨a, p⟩ := x
  obtain ⟨b, q⟩ := y
  obtain ⟨⟨_, h1⟩, h2⟩ := h
  simp only at h1 h2
  subst h1 h2
  rfl

theorem Conn.Rel.rename {x y : Conn} (h : Conn.Rel (Named ρ B) x y) : y = x.rename ρ := by
  obtain ⟨a, p⟩ := x
  obtain ⟨b, q⟩ := y
  obtain ⟨h1, h2⟩ := h
  rw [Conn.rename, ← h1.rename, ← h2.rename]

theorem HalfEdge.Rel.rename {x y : HalfEdge} (h : HalfEdge.Rel (Named ρ B) x y) : y = x.rename ρ := by
  obtain ⟨a, p, t⟩ := x
  obtain ⟨b, q, t'⟩ := y
  obtain ⟨h1, ⟨_, h2⟩, h3⟩ := h
  simp only at h1 h2 h3
  subst h1 h2 h3
  rfl

theorem Side.Rel.rename {x y : Side} (h : Side.Rel (Named ρ B) x y) : y = x.rename ρ := by
  cases h with
  | edge h => exact congrArg Side.edge h.rename
  | conn h => exact congrArg Side.conn h.rename

theorem DStep.Rel.rename {x y : DStep} (h : DStep.Rel (Named ρ B) x y) : y = x.rename ρ := by
  obtain ⟨a, b, c, d⟩ := x
  obtain ⟨a', b', c', d'⟩ := y
  obtain ⟨h1, h2, h3, h4⟩ := h
  simp only at h1 h2 h3 h4
  rw [DStep.rename, ← h1, ← h4, OptRel.to_map (fun _ _ h => h.rename) h2,
    OptRel.to_map (fun _ _ h => forall₂_to_map (fun _ _ h => h.rename) h) h3]

theorem Comp.Rel.shown {x y : Comp T} (h : Comp.Rel (Named ρ B) x y) : y.shown = (renameShown ρ x.shown.1, x.shown.2) := by
  unfold Comp.shown
  rw [h.iet.shown, h.cylinder, h.withoutPeriodicTrajectory, h.keane]

theorem SLengths.make_rel {l l' : List T} (h : ∀ a ∈ B, l'[ρ a]? = l[a]?) (hl : ∀ x ∈ l, 0 ≤ x) (hl' : ∀ x ∈ l', 0 ≤ x) :
    RelM (SLengths.Rel (Named ρ B)) (SLengths.make l) (SLengths.make l') := by
  rw [SLengths.make_of_nonneg hl, SLengths.make_of_nonneg hl']
  refine ⟨?_, .nil, hl, hl'⟩
  rintro a b ⟨h1, rfl⟩
  exact (h a h1).symm

theorem named_labels {l : List Label} (h : ∀ a ∈ l, a ∈ B) : List.Forall₂ (Named ρ B) l (l.map ρ) := forall₂_of_map (fun a ha => ⟨h a ha, rfl⟩)

/-! ### The theorems -/

variable (hρ : Set.InjOn ρ B) {l l' : List T} (hlen : ∀ a ∈ B, l'[ρ a]? = l[a]?) (hl : ∀ x ∈ l, 0 ≤ x) (hl' : ∀ x ∈ l', 0 ≤ x)
  {top bottom : List Label} (htop : ∀ a ∈ top, a ∈ B) (hbottom : ∀ a ∈ bottom, a ∈ B)

include hρ hlen hl hl' htop hbottom in
theorem session_rel (L : PPL) (A : Arith T) (fuel : ℕ) (ops : List Op) : RelM (World.Rel (Named ρ B) (SLengths.Rel (Named ρ B)))
    (session L A fuel l top bottom ops) (session L A fuel l' (top.map ρ) (bottom.map ρ) ops) := by
  have hQ := named_biUnique hρ
  have hO := SLengths.opsRenamed hQ A
  unfold session
  refine (SLengths.make_rel hlen hl hl').bind (fun s t hs => ?_)
  refine (IET.Rel.mk? hQ hO (named_labels htop) (named_labels hbottom) hs).bind (fun E F hE => ?_)
  refine RelM.foldlM (R := Eq) ?_ (forall₂_eq.2 rfl) ⟨.cons hE .nil, hs⟩
  rintro w w' op _ hw rfl
  exact Op.exec_rel hQ hO L fuel op hw

include hρ hlen hl hl' htop hbottom in
theorem dsession_rel (L : PPL) (A : Arith T) (calls : List RCall) (hc : ∀ c ∈ calls, c.Uses B) :
    RelM (Decomp.Rel (Named ρ B) (SLengths.Rel (Named ρ B)))
    (dsession L A l top bottom calls) (dsession L A l' (top.map ρ) (bottom.map ρ) (calls.map (RCall.rename ρ))) := by
  have hQ := named_biUnique hρ
  have hO := SLengths.opsRenamed hQ A
  unfold dsession
  refine (SLengths.make_rel hlen hl hl').bind (fun s t hs => ?_)
  refine (IET.Rel.mk? hQ hO (named_labels htop) (named_labels hbottom) hs).bind (fun E F hE => ?_)
  refine (Decomp.Rel.make hQ hO hE hs).bind (fun D D' hD => ?_)
  refine RelM.foldlM (R := fun c d => RCall.Uses B c ∧ d = c.rename ρ) ?_ (forall₂_of_map (fun c h => ⟨hc c h, rfl⟩)) hD
  rintro D D' c _ hD ⟨hc, rfl⟩
  cases c with
  | decompositionStep fuel limit i => exact RelM.map_rel (fun _ _ h => h.2) (hD.decompositionStep hQ hO L fuel limit i)
  | decompose fuel limit => exact RelM.map_rel (fun _ _ h => h.2) (hD.decompose hQ hO L (fun _ _ h => h.defaultTarget) limit fuel)
  | inject h left right =>
    obtain ⟨h1, h2, h3⟩ := hc
    exact RelM.map_rel (fun _ _ h => h.2) (hD.inject hQ (x := h) (y := h.rename ρ) ⟨rfl, ⟨h1, rfl⟩, rfl⟩
      (forall₂_of_map (fun p hp => ⟨⟨(h2 p hp).1, rfl⟩, ⟨(h2 p hp).2, rfl⟩⟩))
      (forall₂_of_map (fun p hp => ⟨⟨(h3 p hp).1, rfl⟩, ⟨(h3 p hp).2, rfl⟩⟩)))

include hρ hlen hl hl' htop hbottom in
/-- **C70** An IET, all the operations on it, and all the IETs split off from it do not depend on how the labels are called: with other
names there is the same error, or the same IETs with the labels renamed, and the lengths of the renamed labels are the same. -/
theorem C70_session (L : PPL) (A : Arith T) (fuel : ℕ) (ops : List Op) :
    (∃ e, session L A fuel l top bottom ops = .error e ∧ session L A fuel l' (top.map ρ) (bottom.map ρ) ops = .error e) ∨
    ∃ w w', session L A fuel l top bottom ops = .ok w ∧ session L A fuel l' (top.map ρ) (bottom.map ρ) ops = .ok w' ∧
      w'.pieces.map IET.shown = w.pieces.map (fun E => renameShown ρ E.shown) ∧
      ∀ a ∈ B, w'.lengths.lengths[ρ a]? = w.lengths.lengths[a]? := by
  rcases (session_rel hρ hlen hl hl' htop hbottom L A fuel ops).cases with h | ⟨w, w', h1, h2, h3⟩
  · exact .inl h
  · refine .inr ⟨w, w', h1, h2, ?_, fun a ha => (h3.lengths.get a (ρ a) ⟨ha, rfl⟩).symm⟩
    have := h3.pieces
    generalize w.pieces = u, w'.pieces = v at this
    induction this with
    | nil => rfl
    | cons p _ ih => rw [List.map_cons, List.map_cons, p.shown, ih]

include hρ hlen hl hl' htop hbottom in
/-- **C70** After any operations, everything that can be asked about one of the IETs has the same answer with other names; labels in
the answers are renamed. -/
theorem C70_answers (L : PPL) (A : Arith T) (fuel : ℕ) {ops : List Op} {w w' : World (SLengths T) T}
    (hw : session L A fuel l top bottom ops = .ok w) (hw' : session L A fuel l' (top.map ρ) (bottom.map ρ) ops = .ok w')
    {i : ℕ} {E F : IET T} (hE : w.pieces[i]? = some E) (hF : w'.pieces[i]? = some F) :
    let O := SLengths.ops A
    (∀ n limit, (F.induce L O n limit w'.lengths).map (fun x => x.1.shown) = (E.induce L O n limit w.lengths).map (fun x => renameStep ρ x.1.shown)) ∧
    (F.zorichInduction O w'.lengths).map Prod.fst = (E.zorichInduction O w.lengths).map Prod.fst ∧
    (F.reduce O w'.lengths).map (fun x => x.1.map IET.shown) = (E.reduce O w.lengths).map (fun x => x.1.map (fun X => renameShown ρ X.shown)) ∧
    (F.safInvariant O w'.lengths).map Prod.fst = (E.safInvariant O w.lengths).map Prod.fst ∧
    (F.boshernitzanNoPeriodicTrajectory L O w'.lengths).map Prod.fst = (E.boshernitzanNoPeriodicTrajectory L O w.lengths).map Prod.fst ∧
    F.boshernitzanNoSaddleConnection L O w'.lengths = E.boshernitzanNoSaddleConnection L O w.lengths ∧
    ∀ a ∈ B, ∀ b ∈ B, F.boshernitzanNoSaddleConnection₂ L O (ρ a) (ρ b) w'.lengths = E.boshernitzanNoSaddleConnection₂ L O a b w.lengths := by
  have hQ := named_biUnique hρ
  have hO := SLengths.opsRenamed hQ A
  have h := session_rel hρ hlen hl hl' htop hbottom L A fuel ops
  rw [hw, hw'] at h
  have h : World.Rel (Named ρ B) (SLengths.Rel (Named ρ B)) w w' := h
  have hs := h.lengths
  have hEF : IET.Rel (Named ρ B) E F := by
    rcases forall₂_getElem? h.pieces i with ⟨h1, _⟩ | ⟨a, b, h1, h2, h3⟩
    · rw [h1] at hE; cases hE
    · rw [h1] at hE; rw [h2] at hF
      cases hE; cases hF
      exact h3
  refine ⟨fun n limit => ?_, ?_, ?_, ?_, ?_, ?_, ?_⟩
  · exact RelM.to_map (fun _ _ h => h.1.shown) (hEF.induce hQ hO L n limit hs)
  · exact RelM.to_map (fun _ _ h => h.1.symm) (hEF.zorich hQ hO hs)
  · refine RelM.to_map (fun p q h => ?_) (hEF.reduce hQ hO hs)
    have := h.1
    generalize p.1 = u, q.1 = v at this
    cases this with
    | none => rfl
    | some h => exact congrArg some h.shown
  · exact RelM.to_map (fun _ _ h => h.1.symm) (hEF.safInvariant hQ hO hs)
  · exact RelM.to_map (fun _ _ h => h.1.symm) (hEF.bosh hQ hO L hs)
  · exact (hEF.noSaddle hQ hO L hs).symm
  · intro a ha b hb
    exact (hEF.noSaddle₂ hQ hO L hs ⟨ha, rfl⟩ ⟨hb, rfl⟩).symm

include hρ hlen hl hl' htop hbottom in
/-- **C70** A decomposition does not depend on how the labels are called: with other names there is the same error, or the same components
with the same flags and renamed labels, and the same connections on each half edge, in the same order. -/
theorem C70_decomposition (L : PPL) (A : Arith T) {calls : List RCall} (hc : ∀ c ∈ calls, c.Uses B) :
    (∃ e, dsession L A l top bottom calls = .error e ∧ dsession L A l' (top.map ρ) (bottom.map ρ) (calls.map (RCall.rename ρ)) = .error e) ∨
    ∃ D D', dsession L A l top bottom calls = .ok D ∧ dsession L A l' (top.map ρ) (bottom.map ρ) (calls.map (RCall.rename ρ)) = .ok D' ∧
      D'.comps.map Comp.shown = D.comps.map (fun x => (renameShown ρ x.shown.1, x.shown.2)) ∧
      (∀ a ∈ B, D'.lengths.inner.lengths[ρ a]? = D.lengths.inner.lengths[a]?) ∧
      (∀ h : HalfEdge, h.label ∈ B → D'.heLeft (h.rename ρ) = (D.heLeft h).map (List.map (Conn.rename ρ))) ∧
      (∀ h : HalfEdge, h.label ∈ B → D'.heRight (h.rename ρ) = (D.heRight h).map (List.map (Conn.rename ρ))) := by
  have hQ := named_biUnique hρ
  rcases (dsession_rel hρ hlen hl hl' htop hbottom L A calls hc).cases with h | ⟨w, w', h1, h2, h3⟩
  · exact .inl h
  · refine .inr ⟨w, w', h1, h2, ?_, fun a ha => (h3.lengths.inner.get a (ρ a) ⟨ha, rfl⟩).symm, fun h hh => ?_, fun h hh => ?_⟩
    · have := h3.comps
      generalize w.comps = u, w'.comps = v at this
      induction this with
      | nil => rfl
      | cons p _ ih => rw [List.map_cons, List.map_cons, p.shown, ih]
    · have := RelM.to_map (g := id) (fun _ _ h => forall₂_to_map (fun _ _ h => h.rename) h)
        (h3.heLeft hQ (x := h) (y := h.rename ρ) ⟨rfl, ⟨hh, rfl⟩, rfl⟩)
      rwa [Except.map_id] at this
    · have := RelM.to_map (g := id) (fun _ _ h => forall₂_to_map (fun _ _ h => h.rename) h)
        (h3.heRight hQ (x := h) (y := h.rename ρ) ⟨rfl, ⟨hh, rfl⟩, rfl⟩)
      rwa [Except.map_id] at this

include hρ hlen hl hl' htop hbottom in
/-- **C70** After any calls, the next step of a decomposition, `decompose`, the perimeters, the separatrices, and walking along half edges
give the same with other names; labels in the results are renamed. -/
theorem C70_steps (L : PPL) (A : Arith T) {calls : List RCall} (hc : ∀ c ∈ calls, c.Uses B) {D D' : Decomp (SLengths T) T}
    (hD : dsession L A l top bottom calls = .ok D) (hD' : dsession L A l' (top.map ρ) (bottom.map ρ) (calls.map (RCall.rename ρ)) = .ok D') :
    let O := SLengths.ops A
    (∀ fuel limit i, (D'.decompositionStep L O fuel limit i).map Prod.fst = (D.decompositionStep L O fuel limit i).map (fun x => x.1.rename ρ)) ∧
    (∀ limit fuel, (D'.decompose L O Decomp.defaultTarget limit fuel).map Prod.fst = (D.decompose L O Decomp.defaultTarget limit fuel).map Prod.fst) ∧
    (∀ i, D'.perimeter i = (D.perimeter i).map (List.map (Side.rename ρ))) ∧
    (∀ h : HalfEdge, h.label ∈ B → D'.separatrix (h.rename ρ) = (D.separatrix h).map (Option.map (Sep.rename ρ))) ∧
    (∀ h : HalfEdge, h.label ∈ B → D'.next (h.rename ρ) = (D.next h).map (Option.map (HalfEdge.rename ρ))) ∧
    (∀ h : HalfEdge, h.label ∈ B → D'.previous (h.rename ρ) = (D.previous h).map (Option.map (HalfEdge.rename ρ))) ∧
    (∀ i, (D'.iet O A i).map (fun x => x.1.shown) = (D.iet O A i).map (fun x => renameShown ρ x.1.shown)) := by
  have hQ := named_biUnique hρ
  have hO := SLengths.opsRenamed hQ A
  have h := dsession_rel hρ hlen hl hl' htop hbottom L A calls hc
  rw [hD, hD'] at h
  have h : Decomp.Rel (Named ρ B) (SLengths.Rel (Named ρ B)) D D' := h
  have idm : ∀ {α : Type} (x : M α), x.map id = x := fun x => by rw [Except.map_id]; rfl
  refine ⟨fun fuel limit i => ?_, fun limit fuel => ?_, fun i => ?_, fun e he => ?_, fun e he => ?_, fun e he => ?_, fun i => ?_⟩
  · exact RelM.to_map (fun _ _ h => h.1.rename) (h.decompositionStep hQ hO L fuel limit i)
  · exact RelM.to_map (fun _ _ h => h.1.symm) (h.decompose hQ hO L (fun _ _ h => h.defaultTarget) limit fuel)
  · rw [← idm (D'.perimeter i)]
    exact RelM.to_map (fun _ _ h => forall₂_to_map (fun _ _ h => h.rename) h) (h.perimeter hQ i)
  · rw [← idm (D'.separatrix _)]
    exact RelM.to_map (fun _ _ h => OptRel.to_map (fun _ _ h => h.rename) h) (h.separatrix hQ ⟨rfl, ⟨he, rfl⟩, rfl⟩)
  · rw [← idm (D'.next _)]
    exact RelM.to_map (fun _ _ h => OptRel.to_map (fun _ _ h => h.rename) h) (h.next hQ ⟨rfl, ⟨he, rfl⟩, rfl⟩)
  · rw [← idm (D'.previous _)]
    exact RelM.to_map (fun _ _ h => OptRel.to_map (fun _ _ h => h.rename) h) (h.previous hQ ⟨rfl, ⟨he, rfl⟩, rfl⟩)
  · exact RelM.to_map (fun _ _ h => h.1.shown) (h.iet hQ hO A i)

end

namespace Examples

/-- Other names for the labels 0, 1, 2, 3. -/
def otherNames (a : Label) : Label := [5, 2, 7, 3].getD a 0

/-- The lengths for these names; other entries are not used. -/
def otherLens : List Q2 := [⟨9, 0⟩, 0, ⟨3, -1⟩, ⟨5, -3⟩, ⟨1, 1⟩, ⟨1, 2⟩, 0, ⟨0, 1⟩]

/-- Some operations. -/
def someOps : List Op := [.zorichInduction 0, .swap 0, .safInvariant 0, .zorichInduction 0, .reduce 0]

/-- What can be seen of a world. -/
def worldShown (w : M (World (SLengths Q2) Q2)) : M (List (List Label × List Label × Bool)) := w.map (fun w => w.pieces.map IET.shown)

theorem otherNames_injOn : Set.InjOn otherNames {a | a < 4} := by
  intro a ha b hb h
  have key : ∀ a < 4, ∀ b < 4, otherNames a = otherNames b → a = b := by decide
  exact key a ha b hb h

theorem otherLens_eq : ∀ a ∈ {a : ℕ | a < 4}, otherLens[otherNames a]? = q2Lens[a]? := by
  have key : ∀ a < 4, otherLens[otherNames a]? = q2Lens[a]? := by decide
  exact fun a ha => key a ha

/-- The first alternative of the theorem is not needed for this IET. -/
theorem some_world : worldShown (session PPL.ideal q2Arith 0 q2Lens [0, 1, 2, 3] [2, 3, 1, 0] someOps) =
    .ok [([2, 3, 1, 0], [1, 0, 2, 3], true)] := by decide +kernel

end Examples

open Examples in
/-- The hypotheses can be met, and the operations succeed for both names. -/
example : worldShown (session PPL.ideal q2Arith 0 otherLens [5, 2, 7, 3] [7, 3, 2, 5] someOps) = .ok [([7, 3, 2, 5], [2, 5, 7, 3], true)] := by
  rcases C70_session otherNames_injOn otherLens_eq (by decide) (by decide) (top := [0, 1, 2, 3]) (bottom := [2, 3, 1, 0]) (by decide) (by decide)
    PPL.ideal q2Arith 0 someOps with ⟨e, h, _⟩ | ⟨w, w', h1, h2, h3, _⟩
  · have := some_world
    rw [h] at this
    cases this
  · have h := some_world
    rw [h1] at h
    have h : w.pieces.map IET.shown = [([2, 3, 1, 0], [1, 0, 2, 3], true)] := Except.ok.inj h
    rw [show [5, 2, 7, 3] = [0, 1, 2, 3].map otherNames from rfl, show [7, 3, 2, 5] = [2, 3, 1, 0].map otherNames from rfl, h2]
    show Except.ok (w'.pieces.map IET.shown) = _
    rw [h3, show w.pieces.map (fun E => renameShown otherNames E.shown) = (w.pieces.map IET.shown).map (renameShown otherNames) from
      by rw [List.map_map]; rfl, h]
    rfl

end Verif
