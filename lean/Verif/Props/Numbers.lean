import Verif.SpecNumbers
import Verif.Reach
import Verif.ReachDecomp
import Verif.Proofs.NumbersDecomp
import Verif.Props.Basis
import Verif.Examples

/-!
# C64: results only depend on the numbers, not on the type that holds them or on the scale

The same program is run twice: once with lengths in `T` and once with lengths in `T'` that are the images under a map of numbers `φ`.  Types,
implementations of lengths and the fields that coefficients refer to can all be different.
-/

namespace Verif

set_option linter.unusedSectionVars false

variable {σ σ' T T' ε ε' : Type} [CommRing T] [LinearOrder T] [IsStrictOrderedRing T] [CommRing T'] [LinearOrder T'] [IsStrictOrderedRing T']
  {O : LengthsOps σ T} {O' : LengthsOps σ' T'} {d d' : ℕ} {c : T →+ (Fin d → ℚ)} {c' : T' →+ (Fin d' → ℚ)}

/-- The same user program runs with lengths in `T` and with lengths in `T'`: it creates IETs with the same labels, with lengths that correspond
to each other, and makes the same calls. -/
inductive BothNumbers (φ : NumberMap T T') (H : LawfulLengths O c ε) (H' : LawfulLengths O' c' ε') (L : PPL) : World σ T → World σ' T' → Prop
  | init {pieces : List (List Label × List Label)} {s : σ} {t : σ'} :
      (∀ p ∈ pieces, H.Ok (IET.fresh p.1 p.2) s ∧ H'.Ok (IET.fresh p.1 p.2) t ∧ ∀ a ∈ p.1, ∃ x, O.get a s = .ok x ∧ O'.get a t = .ok (φ.map x)) →
      pieces.Pairwise (fun p q => ∀ a ∈ p.1, a ∉ q.1) →
      BothNumbers φ H H' L ⟨pieces.map (fun p => IET.fresh p.1 p.2), s⟩ ⟨pieces.map (fun p => IET.fresh p.1 p.2), t⟩
  | step {w w₁ : World σ T} {w' w₁' : World σ' T'} (fuel : ℕ) (op : Op) : BothNumbers φ H H' L w w' → op.exec L O fuel w = .ok w₁ →
      op.exec L O' fuel w' = .ok w₁' → BothNumbers φ H H' L w₁ w₁'

variable {φ : NumberMap T T'} {H : LawfulLengths O c ε} {H' : LawfulLengths O' c' ε'}

theorem len_of_get {s : σ} {t : σ'} {E : IET T} {F : IET T'} (hE : H.Ok E s) (hF : H'.Ok F t) {a : Label} (ha : a ∈ E.top) (ha' : a ∈ F.top)
    (h : ∃ x, O.get a s = .ok x ∧ O'.get a t = .ok (φ.map x)) : φ.map (H.len s a) = H'.len t a := by
  obtain ⟨x, h1, h2⟩ := h
  rw [H.get_spec s a hE.inv (hE.dom a ha)] at h1
  rw [H'.get_spec t a hF.inv (hF.dom a ha')] at h2
  rw [Except.ok.inj h1]
  exact (Except.ok.inj h2).symm

theorem BothNumbers.num (hc : ∀ x, c x = 0 → x = 0) (hc' : ∀ x, c' x = 0 → x = 0) {L : PPL} (hL : L.Lawful) {w : World σ T} {w' : World σ' T'}
    (h : BothNumbers φ H H' L w w') : NumWorld φ H H' (fun _ _ => True) w w' := by
  induction h with
  | @init pieces s t h1 h2 =>
    have hp : ∀ {T : Type}, (pieces.map (fun p => (IET.fresh p.1 p.2 : IET T))).Pairwise (fun E F => ∀ a ∈ E.top, a ∉ F.top) := by
      intro T
      rw [List.pairwise_map]
      exact h2
    refine ⟨(Reachable.init ?_ hp).ok hL, (Reachable.init ?_ hp).ok hL, ?_⟩
    · simp only [List.mem_map]
      rintro _ ⟨p, h3, rfl⟩
      exact ⟨rfl, (h1 p h3).1⟩
    · simp only [List.mem_map]
      rintro _ ⟨p, h3, rfl⟩
      exact ⟨rfl, (h1 p h3).2.1⟩
    · simp only [List.forall₂_map_left_iff, List.forall₂_map_right_iff]
      rw [List.forall₂_same]
      intro p hp
      obtain ⟨g1, g2, g3⟩ := h1 p hp
      exact Num.fresh g1 g2 (fun a ha => len_of_get g1 g2 ha ha (g3 a ha)) trivial
  | @step w w₁ w' w₁' fuel op _ e1 e2 ih => exact (ih.exec hc hc' (fun _ _ _ _ _ _ => trivial) hL fuel op).of_ok e1 e2

/-- **C64.** For either kind of numbers the same calls return, otherwise both fail in the same way. -/
theorem C64_progress (φ : NumberMap T T') (H : LawfulLengths O c ε) (H' : LawfulLengths O' c' ε') (hc : ∀ x, c x = 0 → x = 0)
    (hc' : ∀ x, c' x = 0 → x = 0) {L : PPL} (hL : L.Lawful) {w : World σ T} {w' : World σ' T'} (h : BothNumbers φ H H' L w w') (fuel : ℕ) (op : Op) :
    (∃ e, op.exec L O fuel w = .error e ∧ op.exec L O' fuel w' = .error e) ∨
      ∃ w₁ w₁', op.exec L O fuel w = .ok w₁ ∧ op.exec L O' fuel w' = .ok w₁' ∧ BothNumbers φ H H' L w₁ w₁' := by
  have := (h.num hc hc' hL).exec hc hc' (fun _ _ _ _ _ _ => trivial) hL fuel op
  cases h1 : op.exec L O fuel w with
  | error e =>
    rw [h1] at this
    cases h2 : op.exec L O' fuel w' with
    | error e' => rw [h2] at this; cases (show e = e' from this); exact .inl ⟨e, rfl, rfl⟩
    | ok b => rw [h2] at this; exact this.elim
  | ok w₁ =>
    obtain ⟨w₁', h2, _⟩ := this.ok_left h1
    exact .inr ⟨w₁, w₁', rfl, h2, .step fuel op h h1 h2⟩

theorem Num.get {rel : ε → ε' → Prop} {E : IET T} {F : IET T'} {s : σ} {t : σ'} (h : Num φ H H' rel E s F t) {a : Label} (ha : a ∈ E.top) :
    ∃ x, O.get a s = .ok x ∧ O'.get a t = .ok (φ.map x) := by
  refine ⟨H.len s a, H.get_spec _ a h.ok.inv (h.ok.dom a ha), ?_⟩
  rw [h.len ha]
  exact H'.get_spec _ a h.ok'.inv (h.ok'.dom a (h.top ▸ ha))

/-- **C64.** After the same calls there are IETs with the same labels whose lengths correspond to each other. -/
theorem C64_state (φ : NumberMap T T') (H : LawfulLengths O c ε) (H' : LawfulLengths O' c' ε') (hc : ∀ x, c x = 0 → x = 0)
    (hc' : ∀ x, c' x = 0 → x = 0) {L : PPL} (hL : L.Lawful) {w : World σ T} {w' : World σ' T'} (h : BothNumbers φ H H' L w w') :
    List.Forall₂ (fun E F => E.top = F.top ∧ E.bottom = F.bottom ∧ E.swapped = F.swapped ∧
      ∀ a ∈ E.top, ∃ x, O.get a w.lengths = .ok x ∧ O'.get a w'.lengths = .ok (φ.map x)) w.pieces w'.pieces :=
  (h.num hc hc' hL).num.imp (fun _ _ hs => ⟨hs.top, hs.bottom, hs.swapped, fun _ ha => hs.get ha⟩)

/-- What is reported by `induce`: the kind of step, the connection, and the labels of the IET that has been split off. -/
def InductionStep.visible (st : InductionStep T) : Result × Option (Label × Label) × Option (List Label × List Label) :=
  (st.result, st.connection, st.additional.map (fun R => (R.top, R.bottom)))

/-- Results related by a relation that implies that a view on the first components is the same. -/
theorem RelM.map_view {α β α' γ δ : Type} {R : α × β → α' × γ → Prop} {x : M (α × β)} {y : M (α' × γ)} (f : α → δ) (g : α' → δ)
    (hR : ∀ a b, R a b → f a.1 = g b.1) (hxy : RelM R x y) : x.map (fun a => f a.1) = y.map (fun b => g b.1) := by
  cases x with
  | error e => cases y with
    | error e' => cases (show e = e' from hxy); rfl
    | ok b => exact hxy.elim
  | ok a => cases y with
    | error e' => exact hxy.elim
    | ok b => simp only [Except.map]; rw [hR a b hxy]

/-- **C64.** After the same calls all functions return the same values.  What differs are the entries of the SAF invariant, but it is zero for one
kind of numbers if and only if it is for the other. -/
theorem C64_results (φ : NumberMap T T') (H : LawfulLengths O c ε) (H' : LawfulLengths O' c' ε') (hc : ∀ x, c x = 0 → x = 0)
    (hc' : ∀ x, c' x = 0 → x = 0) {L : PPL} (hL : L.Lawful) {w : World σ T} {w' : World σ' T'} (h : BothNumbers φ H H' L w w')
    {i : ℕ} {E : IET T} {F : IET T'} (hE : w.pieces[i]? = some E) (hF : w'.pieces[i]? = some F) :
    (∀ fuel limit, (E.induce L O fuel limit w.lengths).map (fun x => x.1.visible) = (F.induce L O' fuel limit w'.lengths).map (fun x => x.1.visible)) ∧
    (E.zorichInduction O w.lengths).map Prod.fst = (F.zorichInduction O' w'.lengths).map Prod.fst ∧
    (E.reduce O w.lengths).map (fun x => x.1.map (fun R => (R.top, R.bottom))) =
      (F.reduce O' w'.lengths).map (fun x => x.1.map (fun R => (R.top, R.bottom))) ∧
    (E.boshernitzanNoPeriodicTrajectory L O w.lengths).map Prod.fst = (F.boshernitzanNoPeriodicTrajectory L O' w'.lengths).map Prod.fst ∧
    E.boshernitzanNoSaddleConnection L O w.lengths = F.boshernitzanNoSaddleConnection L O' w'.lengths ∧
    (∀ t b, E.boshernitzanNoSaddleConnection₂ L O t b w.lengths = F.boshernitzanNoSaddleConnection₂ L O' t b w'.lengths) ∧
    ∃ v v' E' F', E.safInvariant O w.lengths = .ok (v, E') ∧ F.safInvariant O' w'.lengths = .ok (v', F') ∧
      ((∀ a ∈ v, a = 0) ↔ ∀ a ∈ v', a = 0) := by
  have hs := h.num hc hc' hL
  have hi : i < w.pieces.length := (List.getElem?_eq_some_iff.1 hE).1
  have hi' : i < w'.pieces.length := (List.getElem?_eq_some_iff.1 hF).1
  have hn : Num φ H H' (fun _ _ => True) E w.lengths F w'.lengths := by
    have := (List.forall₂_iff_get.1 hs.num).2 i hi hi'
    rw [List.get_eq_getElem, List.get_eq_getElem, (List.getElem?_eq_some_iff.1 hE).2, (List.getElem?_eq_some_iff.1 hF).2] at this
    exact this
  refine ⟨fun fuel limit => RelM.map_view _ _ ?_ (hn.induce hc hc' (fun _ _ _ _ _ _ => trivial) hL fuel limit),
    RelM.map_fst (fun _ _ h => h.1) (hn.zorich (fun _ _ _ _ _ _ => trivial)), RelM.map_view _ _ ?_ hn.reduce,
    RelM.map_fst (fun _ _ h => h.1) (hn.bosh hc hc' hL), (hn.noSaddle hc hc' hL).1, (hn.noSaddle hc hc' hL).2, ?_⟩
  · rintro ⟨a, _⟩ ⟨b, _⟩ ⟨e, -⟩
    simp only at e
    subst e
    simp only [InductionStep.visible, InductionStep.renumber, Option.map_map]
    rfl
  · rintro ⟨a, _⟩ ⟨b, _⟩ ⟨e, -⟩
    simp only at e
    subst e
    simp only [Option.map_map]
    rfl
  · have e1 := safInvariant_spec H hn.ok (hs.ok.good E (List.mem_of_getElem? hE)).cache
    obtain ⟨⟨v, E'⟩, e2, e3, -⟩ := (hn.safInvariant hc hc').ok_left e1
    exact ⟨_, v, _, E', e1, e2, e3⟩

/-! ## Decompositions -/

/-- The same decomposition is made with lengths in `T` and with lengths in `T'`: the same calls to `decompositionStep` of the components; `steps`
and `steps'` are what they return. -/
inductive BothDecompositionsN (O : LengthsOps σ T) (O' : LengthsOps σ' T') (L : PPL) (E : IET T) (s : σ) (F : IET T') (t : σ') :
    Decomp σ T → List DStep → Decomp σ' T' → List DStep → Prop
  | init {D : Decomp σ T} {D' : Decomp σ' T'} : Decomp.make O E s = .ok D → Decomp.make O' F t = .ok D' → BothDecompositionsN O O' L E s F t D [] D' []
  | step {D D₁ : Decomp σ T} {D' D₁' : Decomp σ' T'} {steps steps' : List DStep} {step step' : DStep} (fuel : ℕ) (limit : ℤ) (i : ℕ) :
      BothDecompositionsN O O' L E s F t D steps D' steps' → D.decompositionStep L O fuel limit i = .ok (step, D₁) →
      D'.decompositionStep L O' fuel limit i = .ok (step', D₁') → BothDecompositionsN O O' L E s F t D₁ (steps ++ [step]) D₁' (steps' ++ [step'])

/-- Two IETs with the same labels and lengths that correspond to each other. -/
structure SameIET (φ : NumberMap T T') (O : LengthsOps σ T) (O' : LengthsOps σ' T') (E : IET T) (s : σ) (F : IET T') (t : σ') : Prop where
  top : E.top = F.top
  bottom : E.bottom = F.bottom
  get : ∀ a ∈ E.top, ∃ x, O.get a s = .ok x ∧ O'.get a t = .ok (φ.map x)

theorem SameIET.make {E : IET T} {s : σ} {F : IET T'} {t : σ'} (hE : H.Ok E s) (hF : H'.Ok F t) (h0 : SameIET φ O O' E s F t) :
    ∃ D D', Decomp.make O E s = .ok D ∧ Decomp.make O' F t = .ok D' ∧ Decomp.NumPair φ H H' D D' :=
  Decomp.NumPair.make hE hF h0.top h0.bottom (fun a ha => len_of_get hE hF ha (h0.top ▸ ha) (h0.get a ha))

theorem BothDecompositionsN.pair (hc : ∀ x, c x = 0 → x = 0) (hc' : ∀ x, c' x = 0 → x = 0) {L : PPL} (hL : L.Lawful) {E : IET T} {s : σ}
    {F : IET T'} {t : σ'} (hE : H.Ok E s) (hF : H'.Ok F t) (h0 : SameIET φ O O' E s F t) {D : Decomp σ T} {D' : Decomp σ' T'} {steps steps' : List DStep}
    (h : BothDecompositionsN O O' L E s F t D steps D' steps') : steps = steps' ∧ Decomp.NumPair φ H H' D D' := by
  induction h with
  | init e1 e2 =>
    obtain ⟨D, D', g1, g2, g3⟩ := h0.make hE hF
    rw [g1] at e1
    rw [g2] at e2
    cases e1
    cases e2
    exact ⟨rfl, g3⟩
  | step fuel limit i _ e1 e2 ih =>
    obtain ⟨h1, h2⟩ := (ih.2.step hc hc' hL fuel limit i).of_ok e1 e2
    simp only at h1 h2
    rw [h1, ih.1]
    exact ⟨rfl, h2⟩

/-- **C64.** A step of a decomposition returns the same for either kind of numbers or fails in the same way. -/
theorem C64_step (φ : NumberMap T T') (H : LawfulLengths O c ε) (H' : LawfulLengths O' c' ε') (hc : ∀ x, c x = 0 → x = 0)
    (hc' : ∀ x, c' x = 0 → x = 0) {L : PPL} (hL : L.Lawful) {E : IET T} {s : σ} {F : IET T'} {t : σ'} (hE : H.Ok E s) (hF : H'.Ok F t)
    (h0 : SameIET φ O O' E s F t) {D : Decomp σ T} {D' : Decomp σ' T'} {steps steps' : List DStep}
    (h : BothDecompositionsN O O' L E s F t D steps D' steps') (fuel : ℕ) (limit : ℤ) (i : ℕ) :
    (D.decompositionStep L O fuel limit i).map Prod.fst = (D'.decompositionStep L O' fuel limit i).map Prod.fst :=
  ((h.pair hc hc' hL hE hF h0).2.step hc hc' hL fuel limit i).map_fst (fun _ _ h => h.1)

/-- What can be seen of a component and of its lengths. -/
structure Comp.SameNumbers (φ : NumberMap T T') (O : LengthsOps σ T) (O' : LengthsOps σ' T') (s : σ) (t : σ') (x : Comp T) (y : Comp T') : Prop where
  iet : SameIET φ O O' x.iet s y.iet t
  swapped : x.iet.swapped = y.iet.swapped
  cylinder : x.cylinder = y.cylinder
  withoutPeriodicTrajectory : x.withoutPeriodicTrajectory = y.withoutPeriodicTrajectory
  keane : x.keane = y.keane

theorem Decomp.NumPair.same {D : Decomp σ T} {D' : Decomp σ' T'} (h : Decomp.NumPair φ H H' D D') :
    D.lengths.conns = D'.lengths.conns ∧ List.Forall₂ (Comp.SameNumbers φ O O' D.lengths.inner D'.lengths.inner) D.comps D'.comps :=
  ⟨h.1.conns, h.1.comps.imp (fun _ _ hx => ⟨⟨hx.top, hx.bottom, fun _ ha => Verif.Num.get hx.iet ha⟩, hx.swapped, hx.cylinder,
    hx.withoutPeriodicTrajectory, hx.keane⟩)⟩

/-- **C64.** After the same calls the same steps have been reported and there are components with the same labels, with lengths that correspond to
each other, with the same connections recorded between their half edges, and both decompositions know the same about the dynamics. -/
theorem C64_decomposition (φ : NumberMap T T') (H : LawfulLengths O c ε) (H' : LawfulLengths O' c' ε') (hc : ∀ x, c x = 0 → x = 0)
    (hc' : ∀ x, c' x = 0 → x = 0) {L : PPL} (hL : L.Lawful) {E : IET T} {s : σ} {F : IET T'} {t : σ'} (hE : H.Ok E s) (hF : H'.Ok F t)
    (h0 : SameIET φ O O' E s F t) {D : Decomp σ T} {D' : Decomp σ' T'} {steps steps' : List DStep}
    (h : BothDecompositionsN O O' L E s F t D steps D' steps') :
    steps = steps' ∧ D.lengths.conns = D'.lengths.conns ∧
      List.Forall₂ (Comp.SameNumbers φ O O' D.lengths.inner D'.lengths.inner) D.comps D'.comps := by
  obtain ⟨h1, h2⟩ := h.pair hc hc' hL hE hF h0
  exact ⟨h1, h2.same⟩

/-- What a target can depend on so that it can be evaluated for components with either kind of numbers. -/
structure Comp.SameLabels (x : Comp T) (y : Comp T') : Prop where
  top : x.iet.top = y.iet.top
  bottom : x.iet.bottom = y.iet.bottom
  swapped : x.iet.swapped = y.iet.swapped
  cylinder : x.cylinder = y.cylinder
  withoutPeriodicTrajectory : x.withoutPeriodicTrajectory = y.withoutPeriodicTrajectory
  keane : x.keane = y.keane

/-- **C64.** `decompose` returns the same value and decomposes into the same components, for any target that depends on what can be seen. -/
theorem C64_decompose (φ : NumberMap T T') (H : LawfulLengths O c ε) (H' : LawfulLengths O' c' ε') (hc : ∀ x, c x = 0 → x = 0)
    (hc' : ∀ x, c' x = 0 → x = 0) {L : PPL} (hL : L.Lawful) {E : IET T} {s : σ} {F : IET T'} {t : σ'} (hE : H.Ok E s) (hF : H'.Ok F t)
    (h0 : SameIET φ O O' E s F t) {D : Decomp σ T} {D' : Decomp σ' T'} {steps steps' : List DStep}
    (h : BothDecompositionsN O O' L E s F t D steps D' steps') {target : Comp T → Bool} {target' : Comp T' → Bool}
    (ht : ∀ x y, Comp.SameLabels x y → target x = target' y) (limit : ℤ) (fuel : ℕ) :
    (∃ e, D.decompose L O target limit fuel = .error e ∧ D'.decompose L O' target' limit fuel = .error e) ∨
      ∃ r D₁ D₁', D.decompose L O target limit fuel = .ok (r, D₁) ∧ D'.decompose L O' target' limit fuel = .ok (r, D₁') ∧
        D₁.lengths.conns = D₁'.lengths.conns ∧
        List.Forall₂ (Comp.SameNumbers φ O O' D₁.lengths.inner D₁'.lengths.inner) D₁.comps D₁'.comps := by
  have key := (h.pair hc hc' hL hE hF h0).2.decompose hc hc' hL (target := target) (target' := target')
    (fun _ _ _ hx => ht _ _ ⟨hx.top, hx.bottom, hx.swapped, hx.cylinder, hx.withoutPeriodicTrajectory, hx.keane⟩) limit fuel
  cases h1 : D.decompose L O target limit fuel with
  | error e =>
    rw [h1] at key
    cases h2 : D'.decompose L O' target' limit fuel with
    | error e' => rw [h2] at key; cases (show e = e' from key); exact .inl ⟨e, rfl, rfl⟩
    | ok b => rw [h2] at key; exact key.elim
  | ok x =>
    obtain ⟨y, h2, h3, h4⟩ := key.ok_left h1
    obtain ⟨r, D₁⟩ := x
    obtain ⟨r', D₁'⟩ := y
    cases h3
    exact .inr ⟨r, D₁, D₁', rfl, h2, h4.same⟩

/-! ## Examples -/

namespace Examples

/-- Integers as elements of `ℤ[√2]`. -/
def intoQ2 : NumberMap ℤ Q2 := .ofRingHom (Int.castRingHom Q2) (fun _ _ h => Int.cast_lt.2 h)

theorem intCoef_injective (x : ℤ) (h : intCoef x = 0) : x = 0 := by
  have h0 := congrFun h 0
  simpa [intCoef] using h0

/-- The lengths of `intIET` as elements of `ℤ[√2]`. -/
def intQ2State : SLengths Q2 := ⟨[], intLens.map intoQ2.map⟩

theorem intQ2_ok : hQ2.Ok (.fresh intTop intBottom) intQ2State := sample_ok _ _ _ _ (by decide)

theorem int_both (L : PPL) : BothNumbers intoQ2 hInt hQ2 L ⟨[intIET], intState⟩ ⟨[.fresh intTop intBottom], intQ2State⟩ := by
  refine BothNumbers.init (pieces := [(intTop, intBottom)]) ?_ (by simp)
  simp only [List.mem_singleton, forall_eq]
  refine ⟨int_ok, intQ2_ok, ?_⟩
  intro a ha
  refine ⟨intLens.getD a 0, ?_⟩
  revert a
  decide

/-- Integers and elements of `ℤ[√2]` give the same results, for any number of steps. -/
example (fuel : ℕ) (limit : ℤ) :
    (intIET.induce PPL.ideal (SLengths.ops intArith) fuel limit intState).map (fun x => x.1.visible) =
      ((IET.fresh intTop intBottom : IET Q2).induce PPL.ideal (SLengths.ops q2Arith) fuel limit intQ2State).map (fun x => x.1.visible) :=
  (C64_results intoQ2 hInt hQ2 intCoef_injective q2Coef_injective PPL.ideal_lawful (int_both _) (i := 0) rfl rfl).1 fuel limit

/-- The number `1 + √2`, by which lengths are multiplied. -/
def silver : NumberMap Q2 Q2 := .scale ⟨1, 1⟩ (by decide)

/-- Rescaled lengths: what has been rational has now irrational coefficients. -/
def scaledState : SLengths Q2 := ⟨[], commState.lengths.map silver.map⟩

theorem scaled_ok : hQ2.Ok commIET scaledState := sample_ok _ _ _ _ (by decide)

theorem scaled_same : SameIET silver (SLengths.ops q2Arith) (SLengths.ops q2Arith) commIET commState commIET scaledState := by
  refine ⟨rfl, rfl, fun a ha => ⟨commState.lengths.getD a 0, ?_⟩⟩
  revert a
  decide

/-- A step in the decomposition of an IET before and after rescaling: the step is the same, the lengths still differ by the same factor. -/
example : ∃ step D D', BothDecompositionsN (SLengths.ops q2Arith) (SLengths.ops q2Arith) PPL.ideal commIET commState commIET scaledState D [step] D' [step] ∧
    D.lengths.conns = D'.lengths.conns ∧
    List.Forall₂ (Comp.SameNumbers silver (SLengths.ops q2Arith) (SLengths.ops q2Arith) D.lengths.inner D'.lengths.inner) D.comps D'.comps := by
  obtain ⟨D, D', h1, h2, h3⟩ := scaled_same.make comm_ok scaled_ok
  have hb := BothDecompositionsN.init (L := PPL.ideal) h1 h2
  obtain ⟨D₀, g1, g2, -, g3⟩ := Decomp.make_spec hQ2 (ι := AddMonoidHom.id Q2) (fun _ _ h => h) comm_ok
  rw [show Decomp.make _ commIET commState = _ from h1] at g1
  cases g1
  obtain ⟨step, D₁, g4, -⟩ := decompositionStepBounded_spec (fun _ _ h => h) PPL.ideal_lawful g3 (i := 0) (by rw [g2]; rfl) (limit := 5) (by decide)
  have e1 : D.decompositionStep PPL.ideal (SLengths.ops q2Arith) 0 5 0 = .ok (step, D₁) := g4
  have e := C64_step silver hQ2 hQ2 q2Coef_injective q2Coef_injective PPL.ideal_lawful comm_ok scaled_ok scaled_same hb 0 5 0
  rw [e1] at e
  cases e2 : D'.decompositionStep PPL.ideal (SLengths.ops q2Arith) 0 5 0 with
  | error x => rw [e2] at e; cases e
  | ok x =>
    obtain ⟨step', D₁'⟩ := x
    rw [e2] at e
    cases e
    have hb' := hb.step 0 5 0 e1 e2
    exact ⟨step, D₁, D₁', hb',
      (C64_decomposition silver hQ2 hQ2 q2Coef_injective q2Coef_injective PPL.ideal_lawful comm_ok scaled_ok scaled_same hb').2⟩

end Examples

end Verif
