import Verif.Proofs.Independence
import Verif.Model.Decomposition

/-!
# Functions of IETs are parametric in the implementation of the lengths

No assumptions on the lengths at all: when two implementations of the interface return the same values in related states and go to related states, so
do all functions of IETs.
-/

namespace Verif

set_option linter.unusedSectionVars false

variable {σ σ' T : Type}

/-- Two implementations of the interface behave in the same way in related states. -/
structure OpsRel (R : σ → σ' → Prop) (O : LengthsOps σ T) (O' : LengthsOps σ' T) : Prop where
  push : ∀ l s t, R s t → RelM R (O.push l s) (O'.push l t)
  pop : ∀ s t, R s t → RelM R (O.pop s) (O'.pop t)
  subtract : ∀ x l s t, R s t → RelM R (O.subtract x l s) (O'.subtract x l t)
  subtractRepeated : ∀ x l s t, R s t → RelM (fun a b => a.1 = b.1 ∧ R a.2 b.2) (O.subtractRepeated x l s) (O'.subtractRepeated x l t)
  coefficients : ∀ ls s t, R s t → O.coefficients ls s = O'.coefficients ls t
  cmp : ∀ l s t, R s t → O.cmp l s = O'.cmp l t
  cmp2 : ∀ l r s t, R s t → O.cmp2 l r s = O'.cmp2 l r t
  get : ∀ l s t, R s t → O.get l s = O'.get l t
  forget : ∀ s t, R s t → O.forget s = O'.forget t

section

variable {R : σ → σ' → Prop} {O : LengthsOps σ T} {O' : LengthsOps σ' T}

theorem OpsRel.zorichLoop (h : OpsRel R O O') (x : Ctx) (a : Label) : ∀ (suf rev : List Label) (s : σ) (t : σ'), R s t →
    RelM (fun p q => p.1 = q.1 ∧ R p.2 q.2) (IET.zorichLoop O x a rev suf s) (IET.zorichLoop O' x a rev suf t)
  | [], _, _, _, _ => rfl
  | b :: rest, rev, s, t, hst => by
    unfold IET.zorichLoop
    by_cases hb : b = a
    · rw [if_pos hb, if_pos hb]
      refine (h.subtractRepeated x a s t hst).bind ?_
      rintro ⟨p, s'⟩ ⟨q, t'⟩ ⟨rfl, h'⟩
      refine (RelM.of_eq rfl).bind ?_
      rintro y _ rfl
      exact ⟨rfl, h'⟩
    · rw [if_neg hb, if_neg hb]
      refine (h.push b s t hst).bind ?_
      intro s' t' h'
      rw [h.cmp a s' t' h']
      refine (RelM.of_eq rfl).bind ?_
      rintro y _ rfl
      by_cases hy : 0 ≤ y
      · rw [if_pos hy, if_pos hy]
        refine (h.pop _ _ h').bind ?_
        intro s₁ t₁ h₁
        refine (h.subtract x a _ _ h₁).bind ?_
        intro s₂ t₂ h₂
        exact ⟨rfl, h₂⟩
      · rw [if_neg hy, if_neg hy]
        exact h.zorichLoop x a rest (b :: rev) s' t' h'

theorem OpsRel.zorich (h : OpsRel R O O') (E : IET T) (s : σ) (t : σ') (hst : R s t) :
    RelM (fun p q => p.1 = q.1 ∧ p.2.1 = q.2.1 ∧ R p.2.2 q.2.2) (E.zorichInduction O s) (E.zorichInduction O' t) := by
  unfold IET.zorichInduction
  split
  · next a _ b _ _ _ =>
    by_cases hb : a = b
    · rw [if_pos hb, if_pos hb]; exact ⟨rfl, rfl, hst⟩
    · rw [if_neg hb, if_neg hb]
      refine (h.zorichLoop _ _ _ _ _ _ hst).bind ?_
      rintro ⟨⟨p, p'⟩, s'⟩ ⟨⟨q, q'⟩, t'⟩ ⟨e, h'⟩
      cases e
      refine (RelM.of_eq rfl).bind ?_
      rintro y _ rfl
      cases y with
      | nil => exact rfl
      | cons b' l =>
        simp only
        rw [h.cmp2 _ _ _ _ h']
        refine (RelM.of_eq rfl).bind ?_
        rintro z _ rfl
        exact ⟨rfl, rfl, h'⟩
  · exact rfl

theorem OpsRel.rawSaf (h : OpsRel R O O') (E : IET T) (s : σ) (t : σ') (hst : R s t) : E.rawSaf O s = E.rawSaf O' t := by
  simp only [IET.rawSaf, IET.translations, IET.labelToCoefficients, IET.coefficients, h.coefficients _ _ _ hst]

theorem OpsRel.saf (h : OpsRel R O O') (E : IET T) (s : σ) (t : σ') (hst : R s t) : E.saf O s = E.saf O' t := by
  simp only [IET.saf, h.rawSaf E s t hst]

theorem OpsRel.saf0 (h : OpsRel R O O') (E : IET T) (s : σ) (t : σ') (hst : R s t) : E.saf0 O s = E.saf0 O' t := by
  simp only [IET.saf0, h.saf E s t hst]

theorem OpsRel.safInvariant (h : OpsRel R O O') (E : IET T) (s : σ) (t : σ') (hst : R s t) : E.safInvariant O s = E.safInvariant O' t := by
  simp only [IET.safInvariant, h.saf E s t hst]

theorem OpsRel.equations (h : OpsRel R O O') (E : IET T) (s : σ) (t : σ') (hst : R s t) : E.boshernitzanEquations O s = E.boshernitzanEquations O' t := by
  simp only [IET.boshernitzanEquations, IET.translations, IET.labelToCoefficients, IET.coefficients, h.coefficients _ _ _ hst]

theorem OpsRel.bosh (h : OpsRel R O O') (L : PPL) (E : IET T) (s : σ) (t : σ') (hst : R s t) :
    E.boshernitzanNoPeriodicTrajectory L O s = E.boshernitzanNoPeriodicTrajectory L O' t := by
  unfold IET.boshernitzanNoPeriodicTrajectory
  rw [h.saf0 E s t hst]
  simp only [fun F : IET T => h.equations F s t hst]

theorem OpsRel.mk? [Zero T] [DecidableEq T] (h : OpsRel R O O') (top bottom : List Label) (s : σ) (t : σ') (hst : R s t) :
    IET.mk? O top bottom s = IET.mk? O' top bottom t := by
  unfold IET.mk?
  simp only [fun l => h.get l s t hst]

theorem OpsRel.reduce [Zero T] [DecidableEq T] (h : OpsRel R O O') (E : IET T) (s : σ) (t : σ') (hst : R s t) : E.reduce O s = E.reduce O' t := by
  unfold IET.reduce
  simp only [fun top bottom => h.mk? top bottom s t hst]

variable [CommRing T] [LinearOrder T]

theorem OpsRel.allSimilar (h : OpsRel R O O') (l : SLengths T) (s : σ) (t : σ') (hst : R s t) : ∀ top, IET.allSimilar O l s top = IET.allSimilar O' l t top
  | [] => by simp only [IET.allSimilar]
  | [_] => by simp only [IET.allSimilar]
  | a :: b :: rest => by
    unfold IET.allSimilar
    simp only [fun l => h.get l s t hst, h.allSimilar l s t hst (b :: rest)]

theorem OpsRel.trackerLoop (h : OpsRel R O O') (E : IET T) (s : σ) (t : σ') (hst : R s t) : E.trackerLoop O s = E.trackerLoop O' t := by
  unfold IET.trackerLoop IET.trackerReset
  rw [h.forget s t hst]
  simp only [fun l top => h.allSimilar l s t hst top]

theorem OpsRel.trackStep (h : OpsRel R O O') (z : Bool) (E : IET T) (s : σ) (t : σ') (hst : R s t) : E.trackStep O z s = E.trackStep O' z t := by
  unfold IET.trackStep
  rw [h.saf E s t hst]
  simp only [fun F : IET T => h.trackerLoop F s t hst]

theorem OpsRel.induceLoop (h : OpsRel R O O') (z : Bool) : ∀ (n : ℕ) (E : IET T) (s : σ) (t : σ'), R s t →
    RelM (fun p q => p.1 = q.1 ∧ p.2.1 = q.2.1 ∧ R p.2.2 q.2.2) (IET.induceLoop O z n E s) (IET.induceLoop O' z n E t)
  | 0, _, _, _, hst => ⟨rfl, rfl, hst⟩
  | n + 1, E, s, t, hst => by
    unfold IET.induceLoop
    rw [h.trackStep z E s t hst]
    refine (RelM.of_eq rfl).bind ?_
    rintro ⟨l, F⟩ _ rfl
    cases l with
    | true => exact ⟨rfl, rfl, hst⟩
    | false =>
      simp only [Bool.false_eq_true, if_false]
      refine (h.zorich F s t hst).bind ?_
      rintro ⟨f, F₁, s₁⟩ ⟨_, _, t₁⟩ ⟨e, e', h₁⟩
      simp only at e e' h₁
      subst e e'
      cases f with
      | true => exact ⟨rfl, rfl, h₁⟩
      | false =>
        simp only [Bool.false_eq_true, if_false]
        refine (h.zorich F₁.swap s₁ t₁ h₁).bind ?_
        rintro ⟨f, F₂, s₂⟩ ⟨_, _, t₂⟩ ⟨e, e', h₂⟩
        simp only at e e' h₂
        subst e e'
        cases f with
        | true => exact ⟨rfl, rfl, h₂⟩
        | false =>
          simp only [Bool.false_eq_true, if_false]
          exact h.induceLoop z n _ _ _ h₂

theorem OpsRel.inducePhase (h : OpsRel R O O') (fuel : ℕ) (limit : ℤ) (E : IET T) (s : σ) (t : σ') (hst : R s t) :
    RelM (fun p q => p.1 = q.1 ∧ p.2.1 = q.2.1 ∧ R p.2.2 q.2.2) (E.inducePhase O fuel limit s) (E.inducePhase O' fuel limit t) := by
  unfold IET.inducePhase
  by_cases hl : limit = 0
  · rw [if_pos hl, if_pos hl]; exact ⟨rfl, rfl, hst⟩
  · rw [if_neg hl, if_neg hl, h.saf0 E s t hst]
    refine (RelM.of_eq rfl).bind ?_
    rintro ⟨z, F⟩ _ rfl
    simp only
    by_cases hl : limit = -1
    · rw [if_pos hl, if_pos hl]
      refine (h.induceLoop z fuel F s t hst).bind ?_
      rintro ⟨e, F₁, s₁⟩ ⟨_, _, t₁⟩ ⟨e1, e2, h₁⟩
      simp only at e1 e2 h₁
      subst e1 e2
      simp only
      by_cases he : e = .exhausted
      · rw [if_pos he, if_pos he]; exact rfl
      · rw [if_neg he, if_neg he]; exact ⟨rfl, rfl, h₁⟩
    · rw [if_neg hl, if_neg hl]
      exact h.induceLoop z _ F s t hst

theorem OpsRel.induceFinish (h : OpsRel R O O') (L : PPL) (found : Bool) (E : IET T) (s : σ) (t : σ') (hst : R s t) :
    E.induceFinish L O found s = E.induceFinish L O' found t := by
  unfold IET.induceFinish
  rw [h.reduce E s t hst]
  simp only [fun a b => h.cmp2 a b s t hst, fun F : IET T => h.bosh L F s t hst]

theorem OpsRel.induce (h : OpsRel R O O') (L : PPL) (fuel : ℕ) (limit : ℤ) (E : IET T) (s : σ) (t : σ') (hst : R s t) :
    RelM (fun p q => p.1 = q.1 ∧ p.2.1 = q.2.1 ∧ R p.2.2 q.2.2) (E.induce L O fuel limit s) (E.induce L O' fuel limit t) := by
  unfold IET.induce
  by_cases hs : E.size = 1
  · rw [if_pos hs, if_pos hs]; exact ⟨rfl, rfl, hst⟩
  · rw [if_neg hs, if_neg hs]
    refine (h.inducePhase fuel limit E s t hst).bind ?_
    rintro ⟨e, F, s₁⟩ ⟨_, _, t₁⟩ ⟨e1, e2, h₁⟩
    simp only at e1 e2 h₁
    subst e1 e2
    simp only
    by_cases he : e = .autoSimilar
    · rw [if_pos he, if_pos he]; exact ⟨rfl, rfl, h₁⟩
    · rw [if_neg he, if_neg he, h.induceFinish L _ F s₁ t₁ h₁]
      refine (RelM.of_eq rfl).bind ?_
      rintro ⟨st, F'⟩ _ rfl
      exact ⟨rfl, rfl, h₁⟩

end

section chunks

variable {O : LengthsOps σ T} {O' : LengthsOps σ' T} {R : LWC σ → LWC σ' → Prop} [CommRing T] [LinearOrder T]

theorem OpsRel.cost (h : OpsRel R (LWC.ops O) (LWC.ops O')) (E : IET T) (s : LWC σ) (t : LWC σ') (hst : R s t) :
    Decomp.boshernitzanCost O E s = Decomp.boshernitzanCost O' E t := by
  simp only [Decomp.boshernitzanCost, h.safInvariant E s t hst]

theorem OpsRel.chunks (h : OpsRel R (LWC.ops O) (LWC.ops O')) (L : PPL) (cost : Option ℤ) : ∀ (n : ℕ) (limit : ℤ) (E : IET T) (s : LWC σ) (t : LWC σ'), R s t →
    RelM (fun p q => p.1 = q.1 ∧ p.2.1 = q.2.1 ∧ R p.2.2 q.2.2) (Decomp.chunks L O cost n limit E s) (Decomp.chunks L O' cost n limit E t)
  | 0, _, _, _, _, _ => rfl
  | n + 1, limit, E, s, t, hst => by
    unfold Decomp.chunks
    refine (h.induce L _ _ E s t hst).bind ?_
    rintro ⟨st, F, s₁⟩ ⟨_, _, t₁⟩ ⟨e1, e2, h₁⟩
    simp only at e1 e2 h₁
    subst e1 e2
    simp only
    by_cases hc : st.result = .limitReached ∧ limit - Decomp.chunkSize cost limit ≠ 0
    · rw [if_pos hc, if_pos hc]
      exact h.chunks L cost n _ F s₁ t₁ h₁
    · rw [if_neg hc, if_neg hc]
      exact ⟨rfl, rfl, h₁⟩

end chunks

end Verif
