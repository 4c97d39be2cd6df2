import Verif.Proofs.World
import Verif.Proofs.Rounds

/-!
# Two implementations of the lengths

Running the same function on two implementations of the interface which describe the same lengths.
-/

namespace Verif

set_option linter.unusedSectionVars false

/-- Either both functions return and the results are related by `R`, or both fail in the same way. -/
def RelM {α β : Type} (R : α → β → Prop) : M α → M β → Prop
  | .ok a, .ok b => R a b
  | .error e, .error e' => e = e'
  | _, _ => False

theorem RelM.bind {α β γ δ : Type} {R : α → β → Prop} {S : γ → δ → Prop} {x : M α} {y : M β} {f : α → M γ} {g : β → M δ}
    (h : RelM R x y) (hf : ∀ a b, R a b → RelM S (f a) (g b)) : RelM S (x >>= f) (y >>= g) := by
  cases x with
  | error e => cases y with
    | error e' => exact h
    | ok b => exact h.elim
  | ok a => cases y with
    | error e' => exact h.elim
    | ok b => exact hf a b h

theorem RelM.mono {α β : Type} {R S : α → β → Prop} {x : M α} {y : M β} (h : RelM R x y) (hf : ∀ a b, R a b → S a b) : RelM S x y := by
  cases x with
  | error e => cases y with
    | error e' => exact h
    | ok b => exact h.elim
  | ok a => cases y with
    | error e' => exact h.elim
    | ok b => exact hf a b h

theorem RelM.of_eq {α : Type} {x y : M α} (h : x = y) : RelM (fun a b => a = b) x y := by
  subst h
  cases x <;> exact rfl

theorem RelM.of_ok {α β : Type} {R : α → β → Prop} {x : M α} {y : M β} {a : α} {b : β} (h : RelM R x y) (hx : x = .ok a) (hy : y = .ok b) : R a b := by
  subst hx hy; exact h

theorem RelM.ok_left {α β : Type} {R : α → β → Prop} {x : M α} {y : M β} {a : α} (h : RelM R x y) (hx : x = .ok a) : ∃ b, y = .ok b ∧ R a b := by
  subst hx
  cases y with
  | error e' => exact h.elim
  | ok b => exact ⟨b, rfl, h⟩

theorem RelM.symm {α β : Type} {R : α → β → Prop} {x : M α} {y : M β} (h : RelM R x y) : RelM (fun b a => R a b) y x := by
  cases x with
  | error e => cases y with
    | error e' => exact (show e = e' from h).symm
    | ok b => exact h.elim
  | ok a => cases y with
    | error e' => exact h.elim
    | ok b => exact h

variable {σ σ' T ε ε' : Type} [CommRing T] [LinearOrder T] [IsStrictOrderedRing T] {O : LengthsOps σ T} {O' : LengthsOps σ' T}
  {d : ℕ} {c : T →+ (Fin d → ℚ)}

/-- The trackers are in the same state. -/
structure Tracker.Same (t t' : Tracker T) : Prop where
  periodBound : t.periodBound = t'.periodBound
  ttl : t.ttl = t'.ttl
  top : t.top = t'.top
  bottom : t.bottom = t'.bottom
  lengths : ∀ a ∈ t.top, t.lengths.lengths[a]? = t'.lengths.lengths[a]?

/-- The IETs are in the same state. -/
structure IET.Same (E E' : IET T) : Prop where
  top : E.top = E'.top
  bottom : E.bottom = E'.bottom
  safCache : E.safCache = E'.safCache
  swapped : E.swapped = E'.swapped
  tracker : E.tracker.Same E'.tracker

/-- The labels remembered by the tracker are those of the IET, unless the IET has less intervals now. -/
def IET.TrackSub (E : IET T) : Prop :=
  E.tracker.ttl = 0 ∨ (E.top.length ≤ E.tracker.top.length ∧ (E.top.length = E.tracker.top.length → ∀ a ∈ E.tracker.top, a ∈ E.top))

/-- Two IETs in the same state with equal lengths. -/
structure Sim (H : LawfulLengths O c ε) (H' : LawfulLengths O' c ε') (rel : ε → ε' → Prop) (E : IET T) (s : σ) (F : IET T) (t : σ') : Prop where
  ok : H.Ok E s
  ok' : H'.Ok F t
  same : E.Same F
  len : ∀ a ∈ E.top, H.len s a = H'.len t a
  sub : E.TrackSub
  ext : rel (H.ext s) (H'.ext t)

section

variable {H : LawfulLengths O c ε} {H' : LawfulLengths O' c ε'} {rel : ε → ε' → Prop}

theorem IET.TrackSub.of_track {E : IET T} {s : σ} (h : H.TrackInv Steps E s) : E.TrackSub := by
  rcases h with h | ⟨E₀, E₁, h1, h2, h3, h4, h5⟩
  · exact .inl h
  · right
    rw [← h2]
    rcases h5 with ⟨h5, h6⟩ | h5
    · have hp := Steps.top_perm h5
      have hv := Steps.valid h1 h5
      have key : E.top.Perm E₀.top := by
        rcases h6 with h6 | h6
        · exact (show E.top = E₁.top from h6.1.symm) ▸ hp
        · have : E.top = E₁.bottom := h6.2.1.symm
          rw [this]; exact hv.perm.trans hp
      exact ⟨key.length_eq.le, fun _ a ha => key.mem_iff.2 ha⟩
    · exact ⟨h5.le, fun e => absurd e h5.ne⟩

theorem Sim.agree {E F : IET T} {s : σ} {t : σ'} (h : Sim H H' rel E s F t) : (H.abs E s).Agree (H'.abs F t) :=
  ⟨h.same.top, h.same.bottom, h.len⟩

theorem Sim.swap {E F : IET T} {s : σ} {t : σ'} (h : Sim H H' rel E s F t) : Sim H H' rel E.swap s F.swap t where
  ok := h.ok.swap
  ok' := h.ok'.swap
  same := ⟨h.same.bottom, h.same.top, h.same.safCache, by simp only [IET.swap]; rw [h.same.swapped], h.same.tracker⟩
  len a ha := h.len a (h.ok.valid.perm.mem_iff.1 ha)
  sub := by
    rcases h.sub with h1 | ⟨h1, h2⟩
    · exact .inl h1
    · refine .inr ⟨?_, ?_⟩
      · show E.bottom.length ≤ _
        rw [show E.bottom.length = E.top.length from h.ok.valid.perm.length_eq]; exact h1
      · intro e a ha
        refine h.ok.valid.perm.mem_iff.2 (h2 ?_ a ha)
        rw [← show E.bottom.length = E.top.length from h.ok.valid.perm.length_eq]; exact e
  ext := h.ext

theorem TopPhase.agree {A B A' B' : AIET T} (hA : A.Valid) (h : TopPhase A B) (h' : TopPhase A' B') (ha : A.Agree A') : B.Agree B' := by
  obtain ⟨h1, h2⟩ := h
  have key : ∀ {B : AIET T}, Relation.ReflTransGen RauzyTop A B → ∃ C, Relation.ReflTransGen RauzyTop A' C ∧ B.Agree C := by
    intro B h
    induction h with
    | refl => exact ⟨A', .refl, ha⟩
    | tail hr hs ih =>
      obtain ⟨C, h3, h4⟩ := ih
      obtain ⟨C', h5, h6⟩ := hs.agree (RauzyRun.valid hA hr) h4
      exact ⟨C', .tail h3 h5, h6⟩
  obtain ⟨C, h3, h4⟩ := key h1
  have hB := RauzyRun.valid hA h1
  have : TopPhase A' C := by
    refine ⟨h3, fun D hD => ?_⟩
    obtain ⟨D', h5, _⟩ := hD.agree (h4.valid hB) h4.symm
    exact h2 _ h5
  rw [TopPhase.unique (ha.valid hA) h' this]
  exact h4

theorem AIET.Agree.level {A A' : AIET T} (hA : A.Valid) (h : A.Agree A') : A.Level ↔ A'.Level := by
  have key : ∀ {A A' : AIET T}, A.Valid → A.Agree A' → A.Level → A'.Level := by
    rintro A A' hA h ⟨a, b, h1, h2, h3⟩
    refine ⟨a, b, h.1 ▸ h1, h.2.1 ▸ h2, ?_⟩
    rw [← h.2.2 a (List.mem_of_mem_head? h1), ← h.2.2 b (hA.perm.mem_iff.1 (List.mem_of_mem_head? h2)), h3]
  exact ⟨key hA h, key (h.valid hA) h.symm⟩

theorem AIET.Agree.safList {A A' : AIET T} (hA : A.Valid) (h : A.Agree A') : safList c A = safList c A' :=
  safList_congr (fun φ ψ => h.saf hA φ ψ)

theorem Sim.zorich {E F : IET T} {s : σ} {t : σ'} (hrel : ∀ ctx a b e e', rel e e' → rel (H.mv ctx a b e) (H'.mv ctx a b e'))
    (h : Sim H H' rel E s F t) :
    RelM (fun x y => x.1 = y.1 ∧ Sim H H' rel x.2.1 x.2.2 y.2.1 y.2.2) (E.zorichInduction O s) (F.zorichInduction O' t) := by
  obtain ⟨r, E', s', h1, h2⟩ := zorichInduction_spec H E s h.ok
  obtain ⟨r', F', t', g1, g2⟩ := zorichInduction_spec H' F t h.ok'
  rw [h1, g1]
  have ha : (H.abs E' s').Agree (H'.abs F' t') := TopPhase.agree h.ok.valid h2.phase g2.phase h.agree
  have hr : r = r' := by
    have := (h2.level.symm.trans (ha.level h2.ok.valid)).trans g2.level
    exact Bool.eq_iff_iff.2 this
  refine ⟨hr, h2.ok, g2.ok, ?_, ha.2.2, ?_, ?_⟩
  · have e1 := h2.eq
    have e2 := g2.eq
    refine ⟨ha.1, ha.2.1, ?_, ?_, ?_⟩
    · rw [e1, e2]; exact h.same.safCache
    · rw [e1, e2]; exact h.same.swapped
    · rw [e1, e2]; exact h.same.tracker
  · have e1 := h2.eq
    have := h.sub
    unfold IET.TrackSub at this ⊢
    rw [e1]; exact this
  · rcases h2.ext with ⟨e1, e2, e3⟩ | ⟨a, b, e1, e2, e3, e4, e5⟩
    · rcases g2.ext with ⟨f1, f2, f3⟩ | ⟨a', b', f1, f2, f3, f4, f5⟩
      · show rel (H.ext s') (H'.ext t')
        rw [e3, f3]; exact h.ext
      · exfalso
        have ha' : E.top.head? = some a' := by rw [h.same.top]; exact f1
        have hb' : E.bottom.head? = some b' := by rw [h.same.bottom]; exact f2
        have := h2.final a' b' (by rw [e1]; exact ha') (by rw [e1]; exact hb')
        rw [e2, h.len _ (List.mem_of_mem_head? ha'), h.len _ (h.ok.valid.perm.mem_iff.1 (List.mem_of_mem_head? hb'))] at this
        exact absurd f4 (not_lt.2 this)
    · rcases g2.ext with ⟨f1, f2, f3⟩ | ⟨a', b', f1, f2, f3, f4, f5⟩
      · exfalso
        have := g2.final a b (by rw [f1, ← h.same.top]; exact e1) (by rw [f1, ← h.same.bottom]; exact e2)
        rw [f2, ← h.len _ (List.mem_of_mem_head? e1), ← h.len _ (h.ok.valid.perm.mem_iff.1 (List.mem_of_mem_head? e2))] at this
        exact absurd e4 (not_lt.2 this)
      · have ea : a = a' := by rw [h.same.top, f1] at e1; exact (Option.some.inj e1).symm
        have eb : b = b' := by rw [h.same.bottom, f2] at e2; exact (Option.some.inj e2).symm
        subst ea eb
        show rel (H.ext s') (H'.ext t')
        rw [e5, f5]
        have : E.ctx = F.ctx := by simp only [IET.ctx]; rw [h.same.top, h.same.swapped]
        rw [this]
        exact hrel _ _ _ _ _ h.ext

/-- Changing only caches. -/
theorem Sim.aux {E F E' F' : IET T} {s : σ} {t : σ'} (h : Sim H H' rel E s F t) (h1 : E'.top = E.top) (h2 : E'.bottom = E.bottom)
    (hsame : E'.Same F') (hsub : E'.TrackSub) : Sim H H' rel E' s F' t where
  ok := h.ok.congr h1 h2
  ok' := h.ok'.congr (by rw [← hsame.top, h1, h.same.top]) (by rw [← hsame.bottom, h2, h.same.bottom])
  same := hsame
  len a ha := h.len a (h1 ▸ ha)
  sub := hsub
  ext := h.ext

theorem Sim.saf {E F : IET T} {s : σ} {t : σ'} (h : Sim H H' rel E s F t) :
    RelM (fun x y => x.1 = y.1 ∧ Sim H H' rel x.2 s y.2 t) (E.saf O s) (F.saf O' t) := by
  have hs := h.same
  unfold IET.saf
  rw [← hs.safCache]
  cases he : E.safCache with
  | some v => exact ⟨rfl, h⟩
  | none =>
    simp only [rawSaf_spec H h.ok, rawSaf_spec H' h.ok', bind, Except.bind, pure, Except.pure]
    rw [← AIET.Agree.safList h.ok.valid h.agree, ← hs.swapped]
    refine ⟨rfl, h.aux rfl rfl ⟨hs.top, hs.bottom, rfl, ?_, hs.tracker⟩ h.sub⟩
    first | exact hs.swapped | rfl

theorem Sim.saf0 {E F : IET T} {s : σ} {t : σ'} (h : Sim H H' rel E s F t) :
    RelM (fun x y => x.1 = y.1 ∧ Sim H H' rel x.2 s y.2 t) (E.saf0 O s) (F.saf0 O' t) := by
  unfold IET.saf0
  refine h.saf.bind ?_
  rintro ⟨v, E'⟩ ⟨w, F'⟩ ⟨e, h'⟩
  simp only at e h' ⊢
  subst e
  exact ⟨rfl, h'⟩

theorem Sim.safInvariant {E F : IET T} {s : σ} {t : σ'} (h : Sim H H' rel E s F t) :
    RelM (fun x y => x.1 = y.1 ∧ Sim H H' rel x.2 s y.2 t) (E.safInvariant O s) (F.safInvariant O' t) := by
  unfold IET.safInvariant
  refine h.saf.bind ?_
  rintro ⟨v, E'⟩ ⟨w, F'⟩ ⟨e, h'⟩
  simp only at e h' ⊢
  subst e
  rw [← h'.same.swapped]
  exact ⟨rfl, h'⟩

theorem Sim.get {E F : IET T} {s : σ} {t : σ'} (h : Sim H H' rel E s F t) {a : Label} (ha : a ∈ E.top) : O.get a s = O'.get a t := by
  rw [H.get_spec s a h.ok.inv (h.ok.dom a ha), H'.get_spec t a h.ok'.inv (h.ok'.dom a (h.same.top ▸ ha)), h.len a ha]

theorem Sim.reset {E F : IET T} {s : σ} {t : σ'} (h : Sim H H' rel E s F t) :
    RelM (fun x y => x.Same y ∧ x.top = E.top) (E.trackerReset O s) (F.trackerReset O' t) := by
  have hs := h.same
  obtain ⟨f, h1, h2, h3, h4⟩ := H.forget_spec s h.ok.inv h.ok.nonneg
  obtain ⟨f', g1, g2, g3, g4⟩ := only_spec E.top f h3
  obtain ⟨k, h1', h2', h3', h4'⟩ := H'.forget_spec t h.ok'.inv h.ok'.nonneg
  obtain ⟨k', g1', g2', g3', g4'⟩ := only_spec F.top k h3'
  simp only [IET.trackerReset, h1, g1, h1', g1', bind, Except.bind, pure, Except.pure]
  refine ⟨⟨by rw [hs.tracker.periodBound], hs.tracker.periodBound, hs.top, by rw [hs.top, hs.bottom], ?_⟩, rfl⟩
  intro a ha
  have ha' : a ∈ E.top := ha
  have hb' : a ∈ F.top := hs.top ▸ ha'
  have q1 := h4 a (h.ok.dom a ha')
  have q2 := h4' a (h.ok'.dom a hb')
  obtain ⟨l1, _⟩ := List.getElem?_eq_some_iff.1 q1
  obtain ⟨l2, _⟩ := List.getElem?_eq_some_iff.1 q2
  show f'.lengths[a]? = k'.lengths[a]?
  rw [g4 a l1, g4' a l2, if_pos ha', if_pos hb', q1, q2, h.len a ha']

theorem allSimilar_congr {s : σ} {t : σ'} {l l' : SLengths T} : ∀ (top : List Label), (∀ a ∈ top, O.get a s = O'.get a t) →
    (∀ a ∈ top, l.lengths[a]? = l'.lengths[a]?) → IET.allSimilar O l s top = IET.allSimilar O' l' t top
  | [], _, _ => rfl
  | [_], _, _ => rfl
  | a :: b :: top, h1, h2 => by
    have ih := allSimilar_congr (s := s) (t := t) (b :: top) (fun x hx => h1 x (List.mem_cons_of_mem _ hx))
      (fun x hx => h2 x (List.mem_cons_of_mem _ hx))
    have e1 : l.at' a = l'.at' a := by simp only [SLengths.at']; rw [h2 a (by simp)]
    have e2 : l.at' b = l'.at' b := by simp only [SLengths.at']; rw [h2 b (by simp)]
    have e : l.similar a b (fun x => O.get x s) a b = l'.similar a b (fun x => O'.get x t) a b := by
      simp only [SLengths.similar, e1, e2, h1 a (by simp), h1 b (by simp)]
    simp only [IET.allSimilar, e, ih]

theorem Sim.trackerLoop {E F : IET T} {s : σ} {t : σ'} (h : Sim H H' rel E s F t) :
    RelM (fun x y => x.1 = y.1 ∧ Sim H H' rel x.2 s y.2 t) (E.trackerLoop O s) (F.trackerLoop O' t) := by
  have hs := h.same
  unfold IET.trackerLoop
  by_cases h0 : E.tracker.ttl = 0
  · have h0' : F.tracker.ttl = 0 := by rw [← hs.tracker.ttl]; exact h0
    simp only [h0, h0', if_true]
    refine h.reset.bind ?_
    rintro x y ⟨hx, hx'⟩
    exact ⟨rfl, h.aux rfl rfl ⟨hs.top, hs.bottom, hs.safCache, hs.swapped, hx⟩
      (.inr ⟨by simp [hx'], fun _ a ha => by simpa [hx'] using ha⟩)⟩
  · have h0' : ¬ F.tracker.ttl = 0 := by rw [← hs.tracker.ttl]; exact h0
    simp only [h0, h0', if_false]
    have hsub := h.sub.resolve_left h0
    have h' : Sim H H' rel { E with tracker := { E.tracker with ttl := E.tracker.ttl - 1 } } s
        { F with tracker := { F.tracker with ttl := F.tracker.ttl - 1 } } t :=
      h.aux rfl rfl ⟨hs.top, hs.bottom, hs.safCache, hs.swapped,
        ⟨hs.tracker.periodBound, by simp only [hs.tracker.ttl], hs.tracker.top, hs.tracker.bottom, hs.tracker.lengths⟩⟩ (.inr hsub)
    simp only [IET.size]
    by_cases hl : E.top.length = E.tracker.top.length
    · have hl' : F.top.length = F.tracker.top.length := by rw [← hs.top, ← hs.tracker.top]; exact hl
      simp only [hl, hl', ne_eq, not_true_eq_false, if_false]
      refine (RelM.of_eq (show IET.samePermutation E.top E.bottom E.tracker.bottom = IET.samePermutation F.top F.bottom F.tracker.bottom from ?_)).bind ?_
      · rw [hs.top, hs.bottom, hs.tracker.bottom]
      · rintro a _ rfl
        cases a with
        | false => exact ⟨rfl, h'⟩
        | true =>
          refine (RelM.of_eq (show IET.allSimilar O E.tracker.lengths s E.tracker.top = IET.allSimilar O' F.tracker.lengths t F.tracker.top from ?_)).bind ?_
          · rw [← hs.tracker.top]
            exact allSimilar_congr _ (fun a ha => h.get (hsub.2 hl a ha)) hs.tracker.lengths
          · rintro a _ rfl
            exact ⟨rfl, h'⟩
    · have hl' : ¬ F.top.length = F.tracker.top.length := by rw [← hs.top, ← hs.tracker.top]; exact hl
      simp only [hl, hl', ne_eq, not_false_eq_true, if_true]
      exact ⟨rfl, h'⟩

theorem Sim.trackStep {E F : IET T} {s : σ} {t : σ'} (h : Sim H H' rel E s F t) (z : Bool) :
    RelM (fun x y => x.1 = y.1 ∧ Sim H H' rel x.2 s y.2 t) (E.trackStep O z s) (F.trackStep O' z t) := by
  unfold IET.trackStep
  cases z with
  | false => exact ⟨rfl, h⟩
  | true =>
    refine h.saf.bind ?_
    rintro ⟨v, E'⟩ ⟨w, F'⟩ ⟨e, h'⟩
    simp only at e h' ⊢
    subst e
    by_cases hv : v.length = 0
    · simp only [hv, if_true]; exact ⟨rfl, h'⟩
    · simp only [hv, if_false]; exact h'.trackerLoop

theorem Sim.induceLoop (hrel : ∀ ctx a b e e', rel e e' → rel (H.mv ctx a b e) (H'.mv ctx a b e')) (z : Bool) :
    ∀ (n : ℕ) {E F : IET T} {s : σ} {t : σ'}, Sim H H' rel E s F t →
    RelM (fun x y => x.1 = y.1 ∧ Sim H H' rel x.2.1 x.2.2 y.2.1 y.2.2) (IET.induceLoop O z n E s) (IET.induceLoop O' z n F t)
  | 0, _, _, _, _, h => ⟨rfl, h⟩
  | n + 1, E, F, s, t, h => by
    unfold IET.induceLoop
    refine (h.trackStep z).bind ?_
    rintro ⟨v, E₁⟩ ⟨w, F₁⟩ ⟨e, h₁⟩
    simp only at e h₁ ⊢
    subst e
    cases v with
    | true => exact ⟨rfl, h₁⟩
    | false =>
      simp only [Bool.false_eq_true, if_false]
      refine (h₁.zorich hrel).bind ?_
      rintro ⟨v, E₂, s₂⟩ ⟨w, F₂, t₂⟩ ⟨e, h₂⟩
      simp only at e h₂ ⊢
      subst e
      cases v with
      | true => exact ⟨rfl, h₂⟩
      | false =>
        simp only [Bool.false_eq_true, if_false]
        refine (h₂.swap.zorich hrel).bind ?_
        rintro ⟨v, E₃, s₃⟩ ⟨w, F₃, t₃⟩ ⟨e, h₃⟩
        simp only at e h₃ ⊢
        subst e
        cases v with
        | true => exact ⟨rfl, h₃.swap⟩
        | false =>
          simp only [Bool.false_eq_true, if_false]
          exact Sim.induceLoop hrel z n h₃.swap

theorem Sim.inducePhase (hrel : ∀ ctx a b e e', rel e e' → rel (H.mv ctx a b e) (H'.mv ctx a b e')) (fuel : ℕ) (limit : ℤ)
    {E F : IET T} {s : σ} {t : σ'} (h : Sim H H' rel E s F t) :
    RelM (fun x y => x.1 = y.1 ∧ Sim H H' rel x.2.1 x.2.2 y.2.1 y.2.2) (E.inducePhase O fuel limit s) (F.inducePhase O' fuel limit t) := by
  unfold IET.inducePhase
  by_cases h0 : limit = 0
  · rw [if_pos h0, if_pos h0]; exact ⟨rfl, h⟩
  · rw [if_neg h0, if_neg h0]
    refine h.saf0.bind ?_
    rintro ⟨v, E'⟩ ⟨w, F'⟩ ⟨e, h'⟩
    simp only at e h' ⊢
    subst e
    by_cases h1 : limit = -1
    · rw [if_pos h1, if_pos h1]
      refine (h'.induceLoop hrel v fuel).bind ?_
      rintro ⟨v, E₂, s₂⟩ ⟨w, F₂, t₂⟩ ⟨e, h₂⟩
      simp only at e h₂ ⊢
      subst e
      by_cases h3 : v = .exhausted
      · rw [if_pos h3, if_pos h3]; exact rfl
      · rw [if_neg h3, if_neg h3]; exact ⟨rfl, h₂⟩
    · rw [if_neg h1, if_neg h1]
      exact h'.induceLoop hrel v limit.toNat

theorem IET.Same.refl (E : IET T) : E.Same E := ⟨rfl, rfl, rfl, rfl, rfl, rfl, rfl, rfl, fun _ _ => rfl⟩

/-- An IET with the same lengths. -/
theorem Sim.fresh {E F : IET T} {s : σ} {t : σ'} (h : Sim H H' rel E s F t) {top bottom : List Label} (htop : ∀ a ∈ top, a ∈ E.top)
    (hv : (⟨top, bottom, H.len s⟩ : AIET T).Valid) : Sim H H' rel (IET.fresh top bottom) s (IET.fresh top bottom) t where
  ok := ⟨h.ok.inv, h.ok.stack, fun a ha => h.ok.dom a (htop a ha), hv, h.ok.nonneg⟩
  ok' := ⟨h.ok'.inv, h.ok'.stack, fun a ha => h.ok'.dom a (h.same.top ▸ htop a ha),
    AIET.Agree.valid (E := ⟨top, bottom, H.len s⟩) ⟨rfl, rfl, fun a ha => h.len a (htop a ha)⟩ hv, h.ok'.nonneg⟩
  same := IET.Same.refl _
  len a ha := h.len a (htop a ha)
  sub := .inl rfl
  ext := h.ext

theorem Sim.reduce {E F : IET T} {s : σ} {t : σ'} (h : Sim H H' rel E s F t) :
    RelM (fun x y => (∀ R ∈ x.1, Sim H H' rel R s R t) ∧ x.1 = y.1 ∧ Sim H H' rel x.2 s y.2 t) (E.reduce O s) (F.reduce O' t) := by
  have hs := h.same
  obtain ⟨k, hk, h0, hl, hp, _⟩ := reduceLoop_spec₀ h.ok.valid.nodup h.ok.valid.perm h.ok.valid.ne_nil
  change IET.reduceLoop E.top E.bottom [] 0 0 0 = .ok k at hk
  have hk' : IET.reduceLoop F.top F.bottom [] 0 0 0 = .ok k := by rw [← hs.top, ← hs.bottom]; exact hk
  have hlen : E.bottom.length = E.top.length := h.ok.valid.perm.length_eq
  unfold IET.reduce
  rw [hk, hk']
  simp only [bind, Except.bind, pure, Except.pure]
  by_cases hkl : k = E.top.length
  · rw [if_pos hkl, if_pos (hs.top ▸ hkl)]
    simp only [assertM]
    rw [if_pos (decide_eq_true (by rw [hlen]; exact hkl)), if_pos (decide_eq_true (by rw [← hs.bottom, hlen]; exact hkl))]
    exact ⟨fun R hR => by simp at hR, rfl, h⟩
  · rw [if_neg hkl, if_neg (hs.top ▸ hkl)]
    have hlt : k < E.top.length := lt_of_le_of_ne hl hkl
    have hcut : IsCut (H.abs E s) ⟨E.top.take k, E.bottom.take k, H.len s⟩ ⟨E.top.drop k, E.bottom.drop k, H.len s⟩ k :=
      ⟨h0, hlt, rfl, rfl, hp.symm, by assumption⟩
    have hvr := hcut.valid_right h.ok.valid
    have hvl := hcut.valid_left h.ok.valid
    have hr := h.fresh (top := E.top.drop k) (bottom := E.bottom.drop k) (fun a ha => List.mem_of_mem_drop ha) hvr
    have hm := mk?_spec H h.ok.inv hvr hr.ok.dom
    have hm' := mk?_spec H' h.ok'.inv hr.ok'.valid hr.ok'.dom
    simp only [IET.fresh] at hm' hm hr
    simp only [assertM, ← hs.top, ← hs.bottom, List.length_take, hlen, decide_true, if_true, hm]
    rw [show (IET.mk? O' (E.top.drop k) (E.bottom.drop k) t) = _ from hm']
    refine ⟨fun R hR => ?_, rfl, ?_⟩
    · simp only [Option.mem_def, Option.some.injEq] at hR
      rw [← hR]; exact hr
    · have hl' := h.fresh (top := E.top.take k) (bottom := E.bottom.take k) (fun a ha => List.mem_of_mem_take ha) hvl
      refine hl'.aux rfl rfl ⟨rfl, rfl, rfl, hs.swapped, hs.tracker⟩ ?_
      rcases h.sub with g | ⟨g1, g2⟩
      · exact .inl g
      · refine .inr ⟨?_, ?_⟩
        · simp only [List.length_take]; omega
        · intro e
          simp only [List.length_take] at e; omega

theorem Sim.cmp2 {E F : IET T} {s : σ} {t : σ'} (h : Sim H H' rel E s F t) {a b : Label} (ha : a ∈ E.top) (hb : b ∈ E.top) :
    RelM (fun x y => x = 0 ↔ y = 0) (O.cmp2 a b s) (O'.cmp2 a b t) := by
  obtain ⟨r, h1, h2⟩ := H.cmp2_spec s a b h.ok.inv (h.ok.dom a ha) (h.ok.dom b hb)
  obtain ⟨r', g1, g2⟩ := H'.cmp2_spec t a b h.ok'.inv (h.ok'.dom a (h.same.top ▸ ha)) (h.ok'.dom b (h.same.top ▸ hb))
  rw [h1, g1]
  show r = 0 ↔ r' = 0
  rw [h2, g2, h.len a ha, h.len b hb]

theorem Sim.bosh (L : PPL) {E F : IET T} {s : σ} {t : σ'} (h : Sim H H' rel E s F t) :
    RelM (fun x y => x.1 = y.1 ∧ Sim H H' rel x.2 s y.2 t) (E.boshernitzanNoPeriodicTrajectory L O s) (F.boshernitzanNoPeriodicTrajectory L O' t) := by
  unfold IET.boshernitzanNoPeriodicTrajectory
  refine h.saf0.bind ?_
  rintro ⟨v, E'⟩ ⟨w, F'⟩ ⟨e, h'⟩
  simp only at e h' ⊢
  subst e
  cases v with
  | true => exact ⟨rfl, h'⟩
  | false =>
    simp only [Bool.false_eq_true, if_false, IET.size, ← h'.same.top]
    by_cases hl : E'.top.length ≤ 1
    · simp only [hl, if_true]; exact ⟨rfl, h'⟩
    · simp only [hl, if_false]
      have e : E'.boshernitzanEquations O s = F'.boshernitzanEquations O' t := by
        rw [boshernitzanEquations_spec H h'.ok, boshernitzanEquations_spec H' h'.ok', ← h'.same.top]
        simp only [h'.agree.transl h'.ok.valid]
      rw [e]
      refine (RelM.of_eq rfl).bind ?_
      rintro x _ rfl
      refine (RelM.of_eq rfl).bind ?_
      rintro x _ rfl
      refine (RelM.of_eq rfl).bind ?_
      rintro x _ rfl
      exact ⟨rfl, h'⟩

/-- What `induce` returns is the same. -/
structure InductionStep.Same (x y : InductionStep T) : Prop where
  result : x.result = y.result
  connection : x.connection = y.connection
  additional : x.additional = y.additional

theorem Sim.merge {E F E' F' : IET T} {s : σ} {t : σ'} (h : Sim H H' rel E s F t) (hE : H.Ok E' s) (hlt : E'.top.length < E.top.length)
    (hsub : ∀ a ∈ E'.top, a ∈ E.top) (hs : E'.Same F') (ht : E'.tracker = E.tracker) : Sim H H' rel E' s F' t where
  ok := hE
  ok' := ⟨h.ok'.inv, h.ok'.stack, fun a ha => h.ok'.dom a (h.same.top ▸ hsub a (hs.top ▸ ha)),
    AIET.Agree.valid (E := H.abs E' s) ⟨hs.top, hs.bottom, fun a ha => h.len a (hsub a ha)⟩ hE.valid, h.ok'.nonneg⟩
  same := hs
  len a ha := h.len a (hsub a ha)
  sub := by
    unfold IET.TrackSub
    rw [ht]
    rcases h.sub with g | ⟨g1, g2⟩
    · exact .inl g
    · exact .inr ⟨by omega, fun e => by omega⟩
  ext := h.ext

theorem mergeOk {E : IET T} {s : σ} (h : H.Ok E s) {t b : Label} {top bot : List Label} (htop : E.top = t :: top) (hbot : E.bottom = b :: bot)
    (hbt : b ≠ t) (heq : H.len s t = H.len s b) : H.Ok { E with top := top, bottom := IET.mergeBottom b t bot } s := by
  have hv := h.valid
  have hmt : t ∈ E.top := by simp [htop]
  have htb : t ∈ bot := by
    have : t ∈ E.bottom := hv.perm.mem_iff.mpr hmt
    rw [hbot, List.mem_cons] at this
    exact this.resolve_left (Ne.symm hbt)
  obtain ⟨l₁, l₂, hbot'⟩ := List.append_of_mem htb
  have hnd : E.bottom.Nodup := hv.nodup_bottom
  have htl : t ∉ l₁ := by
    rw [hbot, hbot'] at hnd
    simp only [List.nodup_cons, List.nodup_append] at hnd
    intro hm
    exact hnd.2.2.2 t hm t (by simp) rfl
  have hmb : IET.mergeBottom b t bot = l₁ ++ b :: l₂ := by rw [hbot']; exact mergeBottom_append b t l₁ l₂ htl
  rw [hmb]
  have hmerge : MergeTop (H.abs E s) (H.abs { E with top := top, bottom := l₁ ++ b :: l₂ } s) := by
    have := MergeTop.mk t b top l₁ l₂ (H.len s) heq.symm
    simp only [LawfulLengths.abs, htop, hbot, hbot']
    exact this
  obtain ⟨_, _, hfwd⟩ := hmerge.fwd hv
  exact ⟨h.inv, h.stack, fun a ha => h.dom a (by rw [htop]; exact List.mem_cons_of_mem _ ha), hfwd.valid', h.nonneg⟩

theorem Sim.induceFinish (L : PPL) (found : Bool) {E F : IET T} {s : σ} {t : σ'} (h : Sim H H' rel E s F t) (hsize : E.top.length ≠ 1) :
    RelM (fun x y => x.1 = y.1 ∧ (∀ R ∈ x.1.additional, Sim H H' rel R s R t) ∧ Sim H H' rel x.2 s y.2 t)
      (E.induceFinish L O found s) (F.induceFinish L O' found t) := by
  unfold IET.induceFinish
  rcases reduce_spec H E s h.ok with ⟨hr, hirr⟩ | ⟨k, hr, -⟩
  · obtain ⟨⟨R', F'⟩, hr', h1, h2, h3⟩ := h.reduce.ok_left hr
    simp only at h1 h2 h3
    subst h2
    rw [hr, hr']
    simp only [bind, Except.bind]
    cases htop : E.top with
    | nil => exact absurd htop h.ok.valid.ne_nil
    | cons x top =>
      cases hbot : E.bottom with
      | nil => exact absurd hbot h.ok.valid.inv.ne_nil
      | cons y bottom =>
        have htop' : F'.top = x :: top := by rw [← h3.same.top, htop]
        have hbot' : F'.bottom = y :: bottom := by rw [← h3.same.bottom, hbot]
        simp only [htop', hbot']
        have hx : x ∈ E.top := by rw [htop]; simp
        have hy : y ∈ E.top := h.ok.valid.perm.mem_iff.1 (by show y ∈ E.bottom; rw [hbot]; simp)
        obtain ⟨u, hu1, hu2⟩ := H.cmp2_spec s x y h.ok.inv (h.ok.dom x hx) (h.ok.dom y hy)
        obtain ⟨v, hv1, huv⟩ := (h3.cmp2 hx hy).ok_left hu1
        rw [hu1, hv1]
        simp only
        by_cases hu : u = 0
        · simp only [hu, huv.1 hu, if_true]
          refine ⟨rfl, fun R hR => by simp at hR, ?_⟩
          have hxy : y ≠ x := by
            intro e
            refine hirr 1 (by omega) ?_ ?_
            · show 1 < E.top.length
              have := List.length_pos_of_mem hx
              omega
            · show (E.top.take 1).Perm (E.bottom.take 1)
              rw [htop, hbot, e]; simp
          exact h3.merge (mergeOk h.ok htop hbot hxy (hu2.1 hu)) (by show top.length < E.top.length; rw [htop]; simp)
            (fun a ha => by rw [htop]; exact List.mem_cons_of_mem _ ha) ⟨rfl, rfl, h3.same.safCache, h3.same.swapped, h3.same.tracker⟩ rfl
        · have hv : ¬ v = 0 := fun e => hu (huv.2 e)
          simp only [hu, hv, if_false]
          cases assertM !found with
          | error e => exact rfl
          | ok _ =>
          refine (h3.bosh L).bind ?_
          rintro ⟨b, E'⟩ ⟨b', F''⟩ ⟨e, h4⟩
          simp only at e h4 ⊢
          subst e
          cases b
          · exact ⟨rfl, fun R hR => by simp at hR, h4⟩
          · exact ⟨rfl, fun R hR => by simp at hR, h4⟩
  · obtain ⟨⟨R', F'⟩, hr', h1, h2, h3⟩ := h.reduce.ok_left hr
    simp only at h1 h2 h3
    subst h2
    rw [hr, hr']
    simp only [bind, Except.bind]
    rw [← h3.same.top, ← h3.same.bottom]
    simp only
    split
    · exact ⟨rfl, h1, h3⟩
    · exact rfl

theorem Sim.induce (hrel : ∀ ctx a b e e', rel e e' → rel (H.mv ctx a b e) (H'.mv ctx a b e')) (L : PPL) (fuel : ℕ) (limit : ℤ)
    {E F : IET T} {s : σ} {t : σ'} (h : Sim H H' rel E s F t) (hg : H.Good E s) :
    RelM (fun x y => x.1 = y.1 ∧ (∀ R ∈ x.1.additional, Sim H H' rel R x.2.2 R y.2.2) ∧ Sim H H' rel x.2.1 x.2.2 y.2.1 y.2.2)
      (E.induce L O fuel limit s) (F.induce L O' fuel limit t) := by
  unfold IET.induce
  simp only [IET.size, ← h.same.top]
  by_cases h1 : E.top.length = 1
  · simp only [h1, if_true]
    exact ⟨rfl, fun R hR => by simp at hR, h⟩
  · simp only [h1, if_false]
    have hp := h.inducePhase hrel fuel limit
    rcases inducePhase_spec H fuel limit E s hg with ⟨he, -⟩ | ⟨e, E₁, s₁, he, hm, -⟩
    · rw [he] at hp ⊢
      cases hF : IET.inducePhase O' fuel limit F t with
      | ok b => rw [hF] at hp; exact hp.elim
      | error e => rw [hF] at hp; exact hp
    · obtain ⟨⟨e', F₁, t₁⟩, hF, h2, h3⟩ := hp.ok_left he
      simp only at h2 h3
      subst h2
      rw [he, hF]
      simp only [bind, Except.bind]
      by_cases hauto : e = .autoSimilar
      · simp only [hauto, if_true]
        exact ⟨rfl, fun R hR => by simp at hR, h3⟩
      · simp only [hauto, if_false]
        have hl : E₁.top.length ≠ 1 := by
          have := (hm.top_perm).length_eq
          simp only at this
          omega
        refine (h3.induceFinish L (decide (e = .found)) hl).bind ?_
        rintro ⟨st, E'⟩ ⟨st', F'⟩ ⟨h4, h5, h6⟩
        exact ⟨h4, h5, h6⟩

/-- All IETs of the two worlds are in the same state, with the same lengths. -/
structure SimWorld (H : LawfulLengths O c ε) (H' : LawfulLengths O' c ε') (rel : ε → ε' → Prop) (w : World σ T) (w' : World σ' T) : Prop where
  ok : H.WorldOk w
  ok' : H'.WorldOk w'
  sim : List.Forall₂ (fun E F => Sim H H' rel E w.lengths F w'.lengths) w.pieces w'.pieces

theorem Op.call_sim {L : PPL} (hrel : ∀ ctx a b e e', rel e e' → rel (H.mv ctx a b e) (H'.mv ctx a b e')) (fuel : ℕ) (op : Op)
    {E F : IET T} {s : σ} {t : σ'} (h : Sim H H' rel E s F t) (hg : H.Good E s) :
    RelM (fun x y => x.1 = y.1 ∧ (∀ R ∈ x.1, Sim H H' rel R x.2.2 R y.2.2) ∧ Sim H H' rel x.2.1 x.2.2 y.2.1 y.2.2)
      (op.call L O fuel E s) (op.call L O' fuel F t) := by
  cases op with
  | zorichInduction i =>
    refine (h.zorich hrel).bind ?_
    rintro ⟨r, E', s'⟩ ⟨r', F', t'⟩ ⟨h1, h2⟩
    exact ⟨rfl, fun R hR => by simp at hR, h2⟩
  | swap i => exact ⟨rfl, fun R hR => by simp at hR, h.swap⟩
  | reduce i =>
    refine h.reduce.bind ?_
    rintro ⟨r, E'⟩ ⟨r', F'⟩ ⟨h1, h2, h3⟩
    simp only at h1 h2 h3
    subst h2
    exact ⟨rfl, fun R hR => h1 R (by simpa using hR), h3⟩
  | induce i limit =>
    refine (h.induce hrel L fuel limit hg).bind ?_
    rintro ⟨r, E', s'⟩ ⟨r', F', t'⟩ ⟨h1, h2, h3⟩
    simp only at h1 h2 h3
    subst h1
    exact ⟨rfl, fun R hR => h2 R (by simpa using hR), h3⟩
  | safInvariant i =>
    refine h.safInvariant.bind ?_
    rintro ⟨r, E'⟩ ⟨r', F'⟩ ⟨h1, h3⟩
    exact ⟨rfl, fun R hR => by simp at hR, h3⟩
  | boshernitzanNoPeriodicTrajectory i =>
    refine (h.bosh L).bind ?_
    rintro ⟨r, E'⟩ ⟨r', F'⟩ ⟨h1, h3⟩
    exact ⟨rfl, fun R hR => by simp at hR, h3⟩

theorem forall₂_set {α β : Type} {R S : α → β → Prop} : ∀ {l : List α} {l' : List β} {i : ℕ} {x : α} {y : β}, List.Forall₂ R l l' →
    (∀ (j : ℕ) (a : α) (b : β), j ≠ i → l[j]? = some a → l'[j]? = some b → R a b → S a b) → S x y → List.Forall₂ S (l.set i x) (l'.set i y)
  | [], _, _, _, _, .nil, _, _ => .nil
  | a :: l, b :: l', 0, x, y, .cons h1 h2, hS, hx => by
    refine .cons hx ?_
    have : ∀ {l : List α} {l' : List β}, List.Forall₂ R l l' → (∀ (j : ℕ) (a : α) (b : β), l[j]? = some a → l'[j]? = some b → R a b → S a b) → List.Forall₂ S l l' := by
      intro l l' h
      induction h with
      | nil => exact fun _ => .nil
      | cons h _ ih => exact fun hS => .cons (hS 0 _ _ rfl rfl h) (ih (fun j a b ha hb hR => hS (j+1) a b ha hb hR))
    exact this h2 (fun j a b ha hb hR => hS (j + 1) a b (by omega) ha hb hR)
  | a :: l, b :: l', i + 1, x, y, .cons h1 h2, hS, hx =>
    .cons (hS 0 a b (by omega) rfl rfl h1) (forall₂_set h2 (fun j a b hj ha hb hR => hS (j + 1) a b (by omega) ha hb hR) hx)

theorem Op.exec_sim {L : PPL} (hL : L.Lawful) (hrel : ∀ ctx a b e e', rel e e' → rel (H.mv ctx a b e) (H'.mv ctx a b e')) (fuel : ℕ) (op : Op)
    {w : World σ T} {w' : World σ' T} (h : SimWorld H H' rel w w') :
    RelM (SimWorld H H' rel) (op.exec L O fuel w) (op.exec L O' fuel w') := by
  unfold Op.exec
  have hlen := h.sim.length_eq
  cases hE : w.pieces[op.index]? with
  | none =>
    have : w'.pieces[op.index]? = none := by
      rw [List.getElem?_eq_none_iff] at hE ⊢; omega
    rw [this]; exact h
  | some E =>
    have hi : op.index < w.pieces.length := (List.getElem?_eq_some_iff.1 hE).1
    have hi' : op.index < w'.pieces.length := by omega
    obtain ⟨F, hF⟩ : ∃ F, w'.pieces[op.index]? = some F := ⟨_, List.getElem?_eq_getElem hi'⟩
    have hEm := List.mem_of_getElem? hE
    have hFm := List.mem_of_getElem? hF
    have hs : Sim H H' rel E w.lengths F w'.lengths := by
      have := (List.forall₂_iff_get.1 h.sim).2 op.index hi hi'
      rw [List.get_eq_getElem, List.get_eq_getElem] at this
      have e1 := (List.getElem?_eq_some_iff.1 hE).2
      have e2 := (List.getElem?_eq_some_iff.1 hF).2
      rw [e1, e2] at this
      exact this
    have hc := Op.call_sim (L := L) hrel fuel op hs (h.ok.good E hEm)
    have hx := Op.exec_spec H hL fuel op w h.ok
    have hx' := Op.exec_spec H' hL fuel op w' h.ok'
    unfold Op.exec at hx hx'
    rw [hE] at hx
    rw [hF] at hx' ⊢
    simp only at hx hx' ⊢
    cases h1 : op.call L O fuel E w.lengths with
    | error e =>
      rw [h1] at hc
      cases h2 : op.call L O' fuel F w'.lengths with
      | error e' => rw [h2] at hc; exact hc
      | ok b => rw [h2] at hc; exact hc.elim
    | ok r =>
      obtain ⟨r', h2, h3⟩ := hc.ok_left h1
      rw [h1] at hx
      rw [h2] at hx' ⊢
      obtain ⟨new, E', s'⟩ := r
      obtain ⟨new', F', t'⟩ := r'
      simp only [bind, Except.bind, pure, Except.pure] at hx hx' h3 ⊢
      obtain ⟨e1, e2, e3⟩ := h3
      subst e1
      obtain ⟨w1, hw, hspec⟩ := hx.resolve_left (fun q => by cases q.1)
      obtain ⟨w1', hw', hspec'⟩ := hx'.resolve_left (fun q => by cases q.1)
      cases hw
      cases hw'
      refine ⟨hspec.ok, hspec'.ok, ?_⟩
      simp only
      refine List.rel_append (R := fun E F => Sim H H' rel E s' F t') ?_ ?_
      · refine forall₂_set h.sim ?_ e3
        intro j A B hj hA hB hR
        obtain ⟨q1, q2⟩ := hspec.others j A hj hA
        obtain ⟨q1', q2'⟩ := hspec'.others j B hj hB
        simp only at q1 q2 q1' q2'
        refine ⟨?_, ?_, hR.same, ?_, hR.sub, e3.ext⟩
        · exact (hspec.ok.good A (List.mem_of_getElem? q1)).ok
        · exact (hspec'.ok.good B (List.mem_of_getElem? q1')).ok
        · intro a ha
          rw [q2 a ha, q2' a (hR.same.top ▸ ha)]
          exact hR.len a ha
      · rw [List.forall₂_same]
        exact e2

end

end Verif
