import Verif.SpecNumbers
import Verif.Proofs.RebaseDecomp
import Verif.Proofs.Independence
import Verif.Model.World

/-!
# Writing lengths with other numbers: everything commutes with the translation
-/

namespace Verif

set_option linter.unusedSectionVars false

variable {σ T T' ε : Type} [CommRing T] [LinearOrder T] [IsStrictOrderedRing T] [CommRing T'] [LinearOrder T'] [IsStrictOrderedRing T']
  {O : LengthsOps σ T} {d : ℕ} {c : T →+ (Fin d → ℚ)} (φ : NumberMap T T')

theorem NumberMap.zero_iff (x : T) : φ.map x = 0 ↔ x = 0 := by
  rw [← map_zero φ.map]; exact φ.mono.injective.eq_iff

/-- The same lengths with other numbers. -/
def SLengths.renumber (s : SLengths T) : SLengths T' := ⟨s.stack, s.lengths.map φ.map⟩

/-- The same tracker with other numbers. -/
def Tracker.renumber (t : Tracker T) : Tracker T' := ⟨t.periodBound, t.ttl, t.top, t.bottom, t.lengths.renumber φ⟩

/-- The same IET with other numbers. -/
def IET.renumber (E : IET T) : IET T' := ⟨E.top, E.bottom, E.safCache, E.tracker.renumber φ, E.swapped⟩

/-- The same lengths with other numbers. -/
def LengthsOps.renumber (O : LengthsOps σ T) : LengthsOps σ T' where
  push := O.push
  pop := O.pop
  subtract := O.subtract
  subtractRepeated := O.subtractRepeated
  coefficients := O.coefficients
  cmp := O.cmp
  cmp2 := O.cmp2
  get l s := (O.get l s).map φ.map
  forget s := (O.forget s).map (SLengths.renumber φ)

/-- The same step with other numbers. -/
def InductionStep.renumber (x : InductionStep T) : InductionStep T' := ⟨x.result, x.connection, x.additional.map (IET.renumber φ)⟩

theorem IET.renumber_swap (E : IET T) : (E.renumber φ).swap = E.swap.renumber φ := rfl

theorem IET.renumber_fresh (top bottom : List Label) : (IET.fresh top bottom : IET T).renumber φ = IET.fresh top bottom := rfl

theorem zorichLoop_renumber (ctx : Ctx) (a : Label) : ∀ (bottom rev : List Label) (s : σ),
    IET.zorichLoop (O.renumber φ) ctx a rev bottom s = IET.zorichLoop O ctx a rev bottom s
  | [], _, _ => by simp only [IET.zorichLoop]
  | b :: rest, rev, s => by
    simp only [IET.zorichLoop, zorichLoop_renumber ctx a rest]
    rfl

theorem zorich_renumber (E : IET T) (s : σ) :
    RelM (fun x y => y.1 = x.1 ∧ y.2.1 = x.2.1.renumber φ ∧ y.2.2 = x.2.2) (E.zorichInduction O s) ((E.renumber φ).zorichInduction (O.renumber φ) s) := by
  obtain ⟨top, bottom, cache, tracker, swapped⟩ := E
  unfold IET.zorichInduction
  cases top with
  | nil => exact rfl
  | cons a top =>
    cases bottom with
    | nil => exact rfl
    | cons b bottom =>
      simp only [IET.renumber]
      by_cases hab : a = b
      · rw [if_pos hab, if_pos hab]; exact ⟨rfl, rfl, rfl⟩
      · rw [if_neg hab, if_neg hab, zorichLoop_renumber]
        refine (RelM.of_eq rfl).bind ?_
        rintro ⟨⟨moved, rest⟩, s'⟩ _ rfl
        refine (RelM.of_eq rfl).bind ?_
        rintro bot _ rfl
        cases bot with
        | nil => exact rfl
        | cons b' bot =>
          refine (RelM.of_eq (show O.cmp2 a b' s' = (O.renumber φ).cmp2 a b' s' from rfl)).bind ?_
          rintro z _ rfl
          exact ⟨rfl, rfl, rfl⟩

theorem rawSaf_renumber (E : IET T) (s : σ) : (E.renumber φ).rawSaf (O.renumber φ) s = E.rawSaf O s := rfl

theorem saf_renumber (E : IET T) (s : σ) :
    RelM (fun x y => y.1 = x.1 ∧ y.2 = x.2.renumber φ) (E.saf O s) ((E.renumber φ).saf (O.renumber φ) s) := by
  unfold IET.saf
  rw [rawSaf_renumber]
  simp only [IET.renumber]
  cases he : E.safCache with
  | some v => exact ⟨rfl, by rw [he]⟩
  | none =>
    refine (RelM.of_eq rfl).bind ?_
    rintro v _ rfl
    exact ⟨rfl, rfl⟩

theorem saf0_renumber (E : IET T) (s : σ) :
    RelM (fun x y => y.1 = x.1 ∧ y.2 = x.2.renumber φ) (E.saf0 O s) ((E.renumber φ).saf0 (O.renumber φ) s) := by
  refine (saf_renumber φ E s).bind ?_
  rintro ⟨v, E'⟩ ⟨w, F⟩ ⟨e1, e2⟩
  simp only at e1 e2
  subst e1 e2
  exact ⟨rfl, rfl⟩

theorem safInvariant_renumber (E : IET T) (s : σ) :
    RelM (fun x y => y.1 = x.1 ∧ y.2 = x.2.renumber φ) (E.safInvariant O s) ((E.renumber φ).safInvariant (O.renumber φ) s) := by
  refine (saf_renumber φ E s).bind ?_
  rintro ⟨v, E'⟩ ⟨w, F⟩ ⟨e1, e2⟩
  simp only at e1 e2
  subst e1 e2
  exact ⟨rfl, rfl⟩

theorem bosh_renumber (L : PPL) (E : IET T) (s : σ) :
    RelM (fun x y => y.1 = x.1 ∧ y.2 = x.2.renumber φ) (E.boshernitzanNoPeriodicTrajectory L O s)
      ((E.renumber φ).boshernitzanNoPeriodicTrajectory L (O.renumber φ) s) := by
  refine (saf0_renumber φ E s).bind ?_
  rintro ⟨v, E'⟩ ⟨w, F⟩ ⟨e1, e2⟩
  simp only at e1 e2
  subst e1 e2
  cases w with
  | true => exact ⟨rfl, rfl⟩
  | false =>
    simp only [Bool.false_eq_true, if_false]
    by_cases hl : E'.size ≤ 1
    · rw [if_pos hl, if_pos (show (E'.renumber φ).size ≤ 1 from hl)]; exact ⟨rfl, rfl⟩
    · rw [if_neg hl, if_neg (show ¬ (E'.renumber φ).size ≤ 1 from hl)]
      refine (RelM.of_eq (show E'.boshernitzanEquations O s = (E'.renumber φ).boshernitzanEquations (O.renumber φ) s from rfl)).bind ?_
      rintro x _ rfl
      refine (RelM.of_eq rfl).bind ?_
      rintro x _ rfl
      refine (RelM.of_eq rfl).bind ?_
      rintro x _ rfl
      exact ⟨rfl, rfl⟩

theorem noSaddle_renumber (L : PPL) (E : IET T) (s : σ) :
    (E.renumber φ).boshernitzanNoSaddleConnection L (O.renumber φ) s = E.boshernitzanNoSaddleConnection L O s := rfl

theorem noSaddle₂_renumber (L : PPL) (E : IET T) (t b : Label) (s : σ) :
    (E.renumber φ).boshernitzanNoSaddleConnection₂ L (O.renumber φ) t b s = E.boshernitzanNoSaddleConnection₂ L O t b s := rfl

theorem getAll_renumber (s : σ) : ∀ top : List Label,
    RelM (fun x y => y = x.map φ.map) (top.mapM (fun l => O.get l s)) (top.mapM (fun l => (O.renumber φ).get l s))
  | [] => by simp only [List.mapM_nil]; exact rfl
  | a :: top => by
    simp only [List.mapM_cons]
    have : RelM (fun x y => y = φ.map x) (O.get a s) ((O.renumber φ).get a s) := by
      show RelM _ _ ((O.get a s).map φ.map)
      cases O.get a s <;> exact rfl
    refine this.bind ?_
    rintro x _ rfl
    refine (getAll_renumber s top).bind ?_
    rintro l _ rfl
    exact rfl

theorem mk?_renumber (top bottom : List Label) (s : σ) :
    RelM (fun x y => y = x.renumber φ) (IET.mk? O top bottom s) (IET.mk? (O.renumber φ) top bottom s) := by
  unfold IET.mk?
  refine (RelM.of_eq rfl).bind ?_
  rintro _ _ rfl
  refine (RelM.of_eq rfl).bind ?_
  rintro _ _ rfl
  refine (RelM.of_eq rfl).bind ?_
  rintro _ _ rfl
  refine (getAll_renumber φ s top).bind ?_
  rintro l _ rfl
  refine (RelM.of_eq (congrArg assertM ?_)).bind ?_
  · rw [List.all_map]
    congr 1
    funext x
    simp only [Function.comp, ne_eq, decide_not, φ.zero_iff]
  rintro _ _ rfl
  refine (RelM.of_eq rfl).bind ?_
  rintro _ _ rfl
  exact rfl

theorem reduce_renumber (E : IET T) (s : σ) :
    RelM (fun x y => y.1 = x.1.map (IET.renumber φ) ∧ y.2 = x.2.renumber φ) (E.reduce O s) ((E.renumber φ).reduce (O.renumber φ) s) := by
  unfold IET.reduce
  refine (RelM.of_eq (show IET.reduceLoop E.top E.bottom [] 0 0 0 = IET.reduceLoop (E.renumber φ).top (E.renumber φ).bottom [] 0 0 0 from rfl)).bind ?_
  rintro k _ rfl
  by_cases hk : k = E.top.length
  · rw [if_pos hk, if_pos (show k = (E.renumber φ).top.length from hk)]
    refine (RelM.of_eq (show assertM (k = E.bottom.length) = assertM (k = (E.renumber φ).bottom.length) from rfl)).bind ?_
    rintro _ _ rfl
    exact ⟨rfl, rfl⟩
  · rw [if_neg hk, if_neg (show ¬ k = (E.renumber φ).top.length from hk)]
    refine (RelM.of_eq rfl).bind ?_
    rintro _ _ rfl
    refine (mk?_renumber φ (E.top.drop k) (E.bottom.drop k) s).bind ?_
    rintro R _ rfl
    exact ⟨rfl, rfl⟩

/-! ### The tracker -/

theorem at_renumber (l : SLengths T) (a : Label) : (l.renumber φ).at' a = (l.at' a).map φ.map := by
  simp only [SLengths.at', SLengths.renumber, List.getElem?_map]
  cases l.lengths[a]? <;> rfl

theorem similar_renumber (l : SLengths T) (get : Label → M T) (a b aa bb : Label) :
    (l.renumber φ).similar a b (fun x => (get x).map φ.map) aa bb = l.similar a b get aa bb := by
  simp only [SLengths.similar, at_renumber]
  cases l.at' a with
  | error e => rfl
  | ok x =>
    cases get aa with
    | error e => rfl
    | ok ox =>
      simp only [Except.map, bind, Except.bind, φ.zero_iff]
      by_cases h : x = 0 ∧ ox = 0
      · rw [if_pos h, if_pos h]
      · rw [if_neg h, if_neg h]
        cases l.at' b with
        | error e => rfl
        | ok y =>
          cases get bb with
          | error e => rfl
          | ok oy => simp only [φ.zero_iff, φ.cross]

theorem allSimilar_renumber (l : SLengths T) (s : σ) : ∀ top : List Label,
    IET.allSimilar (O.renumber φ) (l.renumber φ) s top = IET.allSimilar O l s top
  | [] => rfl
  | [_] => rfl
  | a :: b :: top => by
    have ih := allSimilar_renumber l s (b :: top)
    simp only [IET.allSimilar, ih]
    rw [← similar_renumber φ l (fun x => O.get x s)]
    rfl

theorem make_renumber (l : List T) : SLengths.make (l.map φ.map) = (SLengths.make l).map (SLengths.renumber φ) := by
  unfold SLengths.make
  have : (l.map φ.map).any (fun x => x < 0) = l.any (fun x => x < 0) := by
    rw [List.any_map]
    congr 1
    funext x
    have : φ.map x < 0 ↔ x < 0 := by rw [← map_zero φ.map]; exact φ.mono.lt_iff_lt
    simp only [Function.comp, this]
  rw [this]
  cases l.any (fun x => x < 0) <;> rfl

theorem onlyLoop_renumber (keep : List Label) : ∀ (ls : List Label) (l : SLengths T),
    SLengths.onlyLoop keep ls (l.renumber φ) = (SLengths.onlyLoop keep ls l).map (SLengths.renumber φ)
  | [], _ => rfl
  | x :: ls, l => by
    simp only [SLengths.onlyLoop]
    by_cases hx : x ∈ keep
    · rw [if_pos hx, if_pos hx]
      exact onlyLoop_renumber keep ls l
    · rw [if_neg hx, if_neg hx]
      have : (l.renumber φ).set x 0 = (l.set x 0).map (SLengths.renumber φ) := by
        simp only [SLengths.set, SLengths.renumber, List.length_map]
        by_cases h : x < l.lengths.length
        · rw [if_pos h, if_pos h]
          simp only [Except.map, SLengths.renumber, List.map_set, map_zero]
        · rw [if_neg h, if_neg h]; rfl
      rw [this]
      cases l.set x 0 with
      | error e => rfl
      | ok l' => exact onlyLoop_renumber keep ls l'

theorem only_renumber (keep : List Label) (l : SLengths T) : (l.renumber φ).only keep = (l.only keep).map (SLengths.renumber φ) := by
  simp only [SLengths.only]
  rw [show (l.renumber φ).lengths = l.lengths.map φ.map from rfl, make_renumber]
  have : (l.renumber φ).labels = l.labels := by simp only [SLengths.labels, SLengths.renumber, List.length_map]
  rw [this]
  cases SLengths.make l.lengths with
  | error e => rfl
  | ok o => exact onlyLoop_renumber φ keep l.labels o

theorem trackerReset_renumber (E : IET T) (s : σ) :
    RelM (fun x y => y = x.renumber φ) (E.trackerReset O s) ((E.renumber φ).trackerReset (O.renumber φ) s) := by
  unfold IET.trackerReset
  rw [show (O.renumber φ).forget s = (O.forget s).map (SLengths.renumber φ) from rfl]
  cases O.forget s with
  | error e => exact rfl
  | ok f =>
    simp only [Except.map, bind, Except.bind]
    rw [show (f.renumber φ).only (E.renumber φ).top = _ from only_renumber φ E.top f]
    cases f.only E.top with
    | error e => exact rfl
    | ok l => exact rfl

theorem trackerLoop_renumber (E : IET T) (s : σ) :
    RelM (fun x y => y.1 = x.1 ∧ y.2 = x.2.renumber φ) (E.trackerLoop O s) ((E.renumber φ).trackerLoop (O.renumber φ) s) := by
  unfold IET.trackerLoop
  by_cases h0 : E.tracker.ttl = 0
  · rw [if_pos h0, if_pos (show (E.renumber φ).tracker.ttl = 0 from h0)]
    refine (trackerReset_renumber φ E s).bind ?_
    rintro x _ rfl
    exact ⟨rfl, rfl⟩
  · rw [if_neg h0, if_neg (show ¬ (E.renumber φ).tracker.ttl = 0 from h0)]
    simp only
    by_cases hs : E.top.length = E.tracker.top.length
    · have hn : ¬ (IET.size { E with tracker := { E.tracker with ttl := E.tracker.ttl - 1 } } ≠ E.tracker.top.length) := fun h => h hs
      have hn' : ¬ (IET.size { (E.renumber φ) with tracker := { (E.renumber φ).tracker with ttl := (E.renumber φ).tracker.ttl - 1 } } ≠
          (E.renumber φ).tracker.top.length) := fun h => h hs
      rw [if_neg hn, if_neg hn']
      refine (RelM.of_eq (show IET.samePermutation E.top E.bottom E.tracker.bottom = IET.samePermutation (E.renumber φ).top (E.renumber φ).bottom (E.renumber φ).tracker.bottom from rfl)).bind ?_
      rintro b _ rfl
      cases b with
      | false => exact ⟨rfl, rfl⟩
      | true =>
        simp only [Bool.not_true, Bool.false_eq_true, if_false]
        refine (RelM.of_eq (show IET.allSimilar O E.tracker.lengths s E.tracker.top =
          IET.allSimilar (O.renumber φ) (E.renumber φ).tracker.lengths s (E.renumber φ).tracker.top from (allSimilar_renumber φ _ s _).symm)).bind ?_
        rintro b _ rfl
        exact ⟨rfl, rfl⟩
    · have hn : IET.size { E with tracker := { E.tracker with ttl := E.tracker.ttl - 1 } } ≠ E.tracker.top.length := hs
      have hn' : IET.size { (E.renumber φ) with tracker := { (E.renumber φ).tracker with ttl := (E.renumber φ).tracker.ttl - 1 } } ≠
          (E.renumber φ).tracker.top.length := hs
      rw [if_pos hn, if_pos hn']
      exact ⟨rfl, rfl⟩

theorem trackStep_renumber (z : Bool) (E : IET T) (s : σ) :
    RelM (fun x y => y.1 = x.1 ∧ y.2 = x.2.renumber φ) (E.trackStep O z s) ((E.renumber φ).trackStep (O.renumber φ) z s) := by
  unfold IET.trackStep
  cases z with
  | false => exact ⟨rfl, rfl⟩
  | true =>
    refine (saf_renumber φ E s).bind ?_
    rintro ⟨v, E'⟩ ⟨w, F⟩ ⟨e1, e2⟩
    simp only at e1 e2
    subst e1 e2
    simp only
    by_cases hv : w.length = 0
    · rw [if_pos hv, if_pos hv]; exact ⟨rfl, rfl⟩
    · rw [if_neg hv, if_neg hv]; exact trackerLoop_renumber φ E' s

/-! ### Induction -/

theorem induceLoop_renumber (z : Bool) : ∀ (n : ℕ) (E : IET T) (s : σ),
    RelM (fun x y => y.1 = x.1 ∧ y.2.1 = x.2.1.renumber φ ∧ y.2.2 = x.2.2) (IET.induceLoop O z n E s) (IET.induceLoop (O.renumber φ) z n (E.renumber φ) s)
  | 0, _, _ => ⟨rfl, rfl, rfl⟩
  | n + 1, E, s => by
    unfold IET.induceLoop
    refine (trackStep_renumber φ z E s).bind ?_
    rintro ⟨l, E₁⟩ ⟨l', F₁⟩ ⟨e1, e2⟩
    simp only at e1 e2
    subst e1 e2
    cases l' with
    | true => exact ⟨rfl, rfl, rfl⟩
    | false =>
      simp only [Bool.false_eq_true, if_false]
      refine (zorich_renumber φ E₁ s).bind ?_
      rintro ⟨f, E₂, s₂⟩ ⟨f', F₂, t₂⟩ ⟨e1, e2, e3⟩
      simp only at e1 e2 e3
      subst e1 e2 e3
      cases f' with
      | true => exact ⟨rfl, rfl, rfl⟩
      | false =>
        simp only [Bool.false_eq_true, if_false, IET.renumber_swap]
        refine (zorich_renumber φ E₂.swap t₂).bind ?_
        rintro ⟨f, E₃, s₃⟩ ⟨f', F₃, t₃⟩ ⟨e1, e2, e3⟩
        simp only at e1 e2 e3
        subst e1 e2 e3
        cases f' with
        | true => exact ⟨rfl, rfl, rfl⟩
        | false =>
          simp only [Bool.false_eq_true, if_false, IET.renumber_swap]
          exact induceLoop_renumber z n _ _

theorem inducePhase_renumber (fuel : ℕ) (limit : ℤ) (E : IET T) (s : σ) :
    RelM (fun x y => y.1 = x.1 ∧ y.2.1 = x.2.1.renumber φ ∧ y.2.2 = x.2.2) (E.inducePhase O fuel limit s) ((E.renumber φ).inducePhase (O.renumber φ) fuel limit s) := by
  unfold IET.inducePhase
  by_cases h0 : limit = 0
  · rw [if_pos h0, if_pos h0]; exact ⟨rfl, rfl, rfl⟩
  · rw [if_neg h0, if_neg h0]
    refine (saf0_renumber φ E s).bind ?_
    rintro ⟨z, E'⟩ ⟨w, F⟩ ⟨e1, e2⟩
    simp only at e1 e2
    subst e1 e2
    simp only
    by_cases h1 : limit = -1
    · rw [if_pos h1, if_pos h1]
      refine (induceLoop_renumber φ w fuel E' s).bind ?_
      rintro ⟨f, E₂, s₂⟩ ⟨f', F₂, t₂⟩ ⟨e1, e2, e3⟩
      simp only at e1 e2 e3
      subst e1 e2 e3
      simp only
      by_cases hf : f' = .exhausted
      · rw [if_pos hf, if_pos hf]; exact rfl
      · rw [if_neg hf, if_neg hf]; exact ⟨rfl, rfl, rfl⟩
    · rw [if_neg h1, if_neg h1]
      exact induceLoop_renumber φ w _ E' s

theorem induceFinish_renumber (L : PPL) (found : Bool) (E : IET T) (s : σ) :
    RelM (fun x y => y.1 = x.1.renumber φ ∧ y.2 = x.2.renumber φ) (E.induceFinish L O found s) ((E.renumber φ).induceFinish L (O.renumber φ) found s) := by
  unfold IET.induceFinish
  refine (reduce_renumber φ E s).bind ?_
  rintro ⟨R, E'⟩ ⟨R', F⟩ ⟨e1, e2⟩
  simp only at e1 e2
  subst e1 e2
  obtain ⟨top, bottom, cache, tracker, swapped⟩ := E'
  cases R with
  | some R =>
    simp only [Option.map_some, IET.renumber]
    cases bottom.getLast? with
    | none => exact rfl
    | some b =>
      cases top.getLast? with
      | none => exact rfl
      | some t => exact ⟨rfl, rfl⟩
  | none =>
    simp only [Option.map_none]
    cases top with
    | nil => exact rfl
    | cons t top =>
      cases bottom with
      | nil => exact rfl
      | cons b bottom =>
        simp only [IET.renumber]
        refine (RelM.of_eq (show O.cmp2 t b s = (O.renumber φ).cmp2 t b s from rfl)).bind ?_
        rintro x _ rfl
        by_cases hx : x = 0
        · rw [if_pos hx, if_pos hx]; exact ⟨rfl, rfl⟩
        · rw [if_neg hx, if_neg hx]
          refine (RelM.of_eq rfl).bind ?_
          rintro _ _ rfl
          refine (bosh_renumber φ L ⟨t :: top, b :: bottom, cache, tracker, swapped⟩ s).bind ?_
          rintro ⟨x, E'⟩ ⟨x', F⟩ ⟨e1, e2⟩
          simp only at e1 e2
          subst e1 e2
          cases x' <;> exact ⟨rfl, rfl⟩

theorem induce_renumber (L : PPL) (fuel : ℕ) (limit : ℤ) (E : IET T) (s : σ) :
    RelM (fun x y => y.1 = x.1.renumber φ ∧ y.2.1 = x.2.1.renumber φ ∧ y.2.2 = x.2.2) (E.induce L O fuel limit s) ((E.renumber φ).induce L (O.renumber φ) fuel limit s) := by
  unfold IET.induce
  by_cases h1 : E.size = 1
  · rw [if_pos h1, if_pos (show (E.renumber φ).size = 1 from h1)]; exact ⟨rfl, rfl, rfl⟩
  · rw [if_neg h1, if_neg (show ¬ (E.renumber φ).size = 1 from h1)]
    refine (inducePhase_renumber φ fuel limit E s).bind ?_
    rintro ⟨f, E₂, s₂⟩ ⟨f', F₂, t₂⟩ ⟨e1, e2, e3⟩
    simp only at e1 e2 e3
    subst e1 e2 e3
    simp only
    by_cases hf : f' = .autoSimilar
    · rw [if_pos hf, if_pos hf]; exact ⟨rfl, rfl, rfl⟩
    · rw [if_neg hf, if_neg hf]
      refine (induceFinish_renumber φ L _ E₂ t₂).bind ?_
      rintro ⟨st, E'⟩ ⟨st', F⟩ ⟨e1, e2⟩
      exact ⟨e1, e2, rfl⟩

theorem Op.call_renumber (L : PPL) (fuel : ℕ) (op : Op) (E : IET T) (s : σ) :
    RelM (fun x y => y.1 = x.1.map (IET.renumber φ) ∧ y.2.1 = x.2.1.renumber φ ∧ y.2.2 = x.2.2) (op.call L O fuel E s) (op.call L (O.renumber φ) fuel (E.renumber φ) s) := by
  cases op with
  | zorichInduction i =>
    refine (zorich_renumber φ E s).bind ?_
    rintro ⟨r, E', s'⟩ ⟨r', F', t'⟩ ⟨h1, h2, h3⟩
    exact ⟨rfl, h2, h3⟩
  | swap i => exact ⟨rfl, rfl, rfl⟩
  | reduce i =>
    refine (reduce_renumber φ E s).bind ?_
    rintro ⟨r, E'⟩ ⟨r', F'⟩ ⟨h1, h2⟩
    simp only at h1 h2
    subst h1
    refine ⟨?_, h2, rfl⟩
    cases r <;> rfl
  | induce i limit =>
    refine (induce_renumber φ L fuel limit E s).bind ?_
    rintro ⟨r, E', s'⟩ ⟨r', F', t'⟩ ⟨h1, h2, h3⟩
    simp only at h1 h2 h3
    subst h1
    refine ⟨?_, h2, h3⟩
    simp only [InductionStep.renumber]
    cases r.additional <;> rfl
  | safInvariant i =>
    refine (safInvariant_renumber φ E s).bind ?_
    rintro ⟨r, E'⟩ ⟨r', F'⟩ ⟨h1, h2⟩
    exact ⟨rfl, h2, rfl⟩
  | boshernitzanNoPeriodicTrajectory i =>
    refine (bosh_renumber φ L E s).bind ?_
    rintro ⟨r, E'⟩ ⟨r', F'⟩ ⟨h1, h2⟩
    exact ⟨rfl, h2, rfl⟩

/-- The same IETs with other numbers. -/
def World.renumber (w : World σ T) : World σ T' := ⟨w.pieces.map (IET.renumber φ), w.lengths⟩

theorem Op.exec_renumber (L : PPL) (fuel : ℕ) (op : Op) (w : World σ T) :
    RelM (fun x y => y = x.renumber φ) (op.exec L O fuel w) (op.exec L (O.renumber φ) fuel (w.renumber φ)) := by
  unfold Op.exec
  simp only [World.renumber, List.getElem?_map]
  cases w.pieces[op.index]? with
  | none => exact rfl
  | some E =>
    simp only [Option.map_some]
    refine (Op.call_renumber φ L fuel op E w.lengths).bind ?_
    rintro ⟨new, E', s'⟩ ⟨new', F', t'⟩ ⟨h1, h2, h3⟩
    simp only at h1 h2 h3
    subst h1 h2 h3
    show (_ : World σ T') = _
    simp only [World.renumber, List.map_append, List.map_set]

/-! ### The contract -/

/-- Coefficients of the lengths after writing them with other numbers. -/
def renumberCoefficients (O : LengthsOps σ T) {d' : ℕ} (c' : T' →+ (Fin d' → ℚ)) (l : List Label) (s : σ) : M (List (List ℚ)) :=
  (l.mapM (fun x => O.get x s)).map (fun v => v.map (fun x => List.ofFn (c' (φ.map x))))

theorem mapM_get_len (H : LawfulLengths O c ε) {s : σ} (hs : H.inv s) : ∀ l : List Label, (∀ x ∈ l, H.dom s x) →
    l.mapM (fun x => O.get x s) = .ok (l.map (H.len s))
  | [], _ => rfl
  | a :: l, h => by
    simp only [List.mapM_cons, H.get_spec s a hs (h a (by simp)), mapM_get_len H hs l (fun x hx => h x (List.mem_cons_of_mem _ hx))]
    rfl

theorem sumLen_numbers (len : Label → T) : ∀ l : List Label, sumLen (fun a => φ.map (len a)) l = φ.map (sumLen len l)
  | [] => (map_zero φ.map).symm
  | a :: l => by simp only [sumLen, sumLen_numbers len l, map_add]

theorem shorten_map (len : Label → T) (a : Label) (x : T) : (fun b => φ.map (shorten len a x b)) = shorten (fun b => φ.map (len b)) a (φ.map x) := by
  funext b
  simp only [shorten]
  split <;> simp

/-- Lengths that satisfy the contract do so when written with other numbers. -/
def LawfulLengths.renumber (H : LawfulLengths O c ε) {d' : ℕ} (c' : T' →+ (Fin d' → ℚ)) :
    LawfulLengths ((O.renumber φ).rebase (renumberCoefficients φ O c')) c' ε where
  inv := H.inv
  dom := H.dom
  len s a := φ.map (H.len s a)
  stack := H.stack
  ext := H.ext
  mv := H.mv
  push_spec s l h1 h2 h3 := by
    obtain ⟨s', e1, e2, e3, e4, e5⟩ := H.push_spec s l h1 h2 h3
    exact ⟨s', e1, e2, e3, by rw [e4], e5⟩
  pop_spec s st l h1 h2 := by
    obtain ⟨s', e1, e2, e3, e4, e5⟩ := H.pop_spec s st l h1 h2
    exact ⟨s', e1, e2, e3, by rw [e4], e5⟩
  cmp_spec s a h1 h2 h3 := by
    obtain ⟨r, e1, e2⟩ := H.cmp_spec s a h1 h2 h3
    refine ⟨r, e1, e2.trans ?_⟩
    rw [sumLen_numbers]
    exact φ.mono.le_iff_le.symm
  cmp2_spec s a b h1 h2 h3 := by
    obtain ⟨r, e1, e2⟩ := H.cmp2_spec s a b h1 h2 h3
    exact ⟨r, e1, e2.trans φ.mono.injective.eq_iff.symm⟩
  get_spec s a h1 h2 := by
    show (O.get a s).map φ.map = _
    rw [H.get_spec s a h1 h2]; rfl
  coefficients_spec s l h1 h2 := by
    show renumberCoefficients φ O c' l s = _
    rw [renumberCoefficients, mapM_get_len H h1 l h2]
    simp only [Except.map, List.map_map]
    rfl
  subtract_spec ctx s a h1 h2 h3 h4 h5 := by
    rw [sumLen_numbers] at h5 ⊢
    obtain ⟨s', e1, e2, e3, e4, e5⟩ := H.subtract_spec ctx s a h1 h2 h3 h4 (φ.mono.lt_iff_lt.1 h5)
    refine ⟨s', e1, e2, e3, ?_, e5⟩
    rw [e4, shorten_map]
  subtractRepeated_spec ctx s a h1 h2 h3 h4 h5 h6 h7 := by
    rw [sumLen_numbers] at h6
    obtain ⟨stop, s', k, pre, l, post, e1, e2, e3, e4, e5, e6, e7, e8, e9, e10, e11⟩ :=
      H.subtractRepeated_spec ctx s a h1 h2 h3 h4 (fun x hx => φ.mono.lt_iff_lt.1 (by rw [map_zero]; exact h5 x hx)) (φ.mono.lt_iff_lt.1 h6) h7
    refine ⟨stop, s', k, pre, l, post, e1, e2, e3, e4, e5, ?_, ?_, φ.mono.le_iff_le.2 e8, e9, e10, e11⟩
    · rw [e6, shorten_map, sumLen_numbers, sumLen_numbers, map_add]
      congr 2
      rw [← nsmul_eq_mul, ← nsmul_eq_mul, map_nsmul]
    · rw [← map_zero φ.map]; exact φ.mono.lt_iff_lt.2 e7
  forget_spec s h1 h2 := by
    have key : ∀ x, 0 ≤ φ.map x ↔ 0 ≤ x := fun x => by
      rw [← map_zero φ.map]; exact φ.mono.le_iff_le
    obtain ⟨f, e1, e2, e3, e4⟩ := H.forget_spec s h1 (fun a ha => (key _).1 (h2 a ha))
    refine ⟨f.renumber φ, ?_, e2, ?_, ?_⟩
    · show (O.forget s).map (SLengths.renumber φ) = _
      rw [e1]; rfl
    · intro x hx
      simp only [SLengths.renumber, List.mem_map] at hx
      obtain ⟨y, hy, rfl⟩ := hx
      exact (key y).2 (e3 y hy)
    · intro a ha
      simp only [SLengths.renumber, List.getElem?_map, e4 a ha, Option.map_some]

theorem renumber_rebase {d' : ℕ} (c' : T' →+ (Fin d' → ℚ)) :
    ((O.renumber φ).rebase (renumberCoefficients φ O c')).rebase O.coefficients = O.renumber φ := rfl

/-- The original coefficients are coordinates for the new numbers. -/
theorem LawfulLengths.renumber_coordinates (H : LawfulLengths O c ε) (hc : ∀ x, c x = 0 → x = 0) {d' : ℕ} (c' : T' →+ (Fin d' → ℚ)) :
    (H.renumber φ c').Coordinates O.coefficients := by
  intro s l h1 h2 _
  refine ⟨d, fun x => c (H.len s x), H.coefficients_spec s l h1 h2, fun n => ?_⟩
  have e1 : (l.map (fun x => n x • c (H.len s x))).sum = c ((l.map (fun x => n x • H.len s x)).sum) := by
    rw [map_list_sum, List.map_map]
    congr 1
    exact List.map_congr_left (fun x _ => (map_zsmul c _ _).symm)
  have e2 : (l.map (fun x => n x • (H.renumber φ c').len s x)).sum = φ.map ((l.map (fun x => n x • H.len s x)).sum) := by
    rw [map_list_sum, List.map_map]
    congr 1
    exact List.map_congr_left (fun x _ => (map_zsmul φ.map _ _).symm)
  rw [e1, e2, φ.zero_iff]
  exact ⟨hc _, fun h => by rw [h, map_zero]⟩

theorem LawfulLengths.Ok.renumber {H : LawfulLengths O c ε} {E : IET T} {s : σ} (h : H.Ok E s) {d' : ℕ} (c' : T' →+ (Fin d' → ℚ)) :
    (H.renumber φ c').Ok (E.renumber φ) s where
  inv := h.inv
  stack := h.stack
  dom := h.dom
  valid := by
    refine ⟨h.valid.ne_nil, h.valid.nodup, h.valid.perm, fun a ha => ?_⟩
    show 0 < φ.map (H.len s a)
    rw [← map_zero φ.map]
    exact φ.mono.lt_iff_lt.2 (h.valid.pos a ha)
  nonneg a ha := by
    show 0 ≤ φ.map (H.len s a)
    rw [← map_zero φ.map]
    exact φ.mono.le_iff_le.2 (h.nonneg a ha)

end Verif
