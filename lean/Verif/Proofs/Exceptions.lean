import Verif.SpecExceptions
import Verif.Proofs.Rebase

/-!
# Exceptions: comparison of calls that throw with calls that do not
-/

namespace Verif

set_option linter.unusedSectionVars false

namespace Outcome

variable {S α β : Type}

/-- The outcome without the state that an exception leaves behind. -/
def forget (x : Outcome S α) : M (α × S) := x.1.map (fun a => (a, x.2))

@[simp] theorem forget_ok (a : α) (s : S) : forget (.ok a, s) = .ok (a, s) := rfl
@[simp] theorem forget_error (e : Err) (s : S) : forget (.error e, s) = (.error e : M (α × S)) := rfl

@[simp] theorem forget_atomic (x : M (α × S)) (s : S) : forget (atomic x s) = x := by
  rcases x with e | ⟨a, s⟩ <;> rfl

theorem forget_next (x : Outcome S α) (k : α → S → Outcome S β) :
    forget (next x k) = (forget x >>= fun p => forget (k p.1 p.2)) := by
  rcases x with ⟨e | a, s⟩ <;> rfl

theorem forget_eq_ok {x : Outcome S α} {a : α} {s : S} : forget x = .ok (a, s) ↔ x = (.ok a, s) := by
  rcases x with ⟨e | b, t⟩
  · simp [forget, Except.map]
  · simp [forget, Except.map]

theorem forget_eq_error {x : Outcome S α} {e : Err} : forget x = .error e ↔ x.1 = .error e := by
  rcases x with ⟨e | b, t⟩
  · simp [forget, Except.map]
  · simp [forget, Except.map]

end Outcome

open Outcome

variable {σ T : Type} [CommRing T] [LinearOrder T] [IsStrictOrderedRing T] {O : LengthsOps σ T} {f f' : List Label → σ → M (List (List ℚ))}

/-! ### The functions are the ones of the model -/

theorem forget_saf (E : IET T) (s : σ) : forget (E.safX O s) = E.saf O s := forget_atomic _ _

theorem forget_saf0 (E : IET T) (s : σ) : forget (E.saf0X O s) = E.saf0 O s := by
  unfold IET.saf0X IET.saf0
  rw [forget_next, forget_saf]
  rfl

theorem forget_safInvariant (E : IET T) (s : σ) : forget (E.safInvariantX O s) = E.safInvariant O s := by
  unfold IET.safInvariantX IET.safInvariant
  rw [forget_next, forget_saf]
  rfl

theorem forget_bosh (L : PPL) (E : IET T) (s : σ) :
    forget (E.boshernitzanNoPeriodicTrajectoryX L O s) = E.boshernitzanNoPeriodicTrajectory L O s := by
  unfold IET.boshernitzanNoPeriodicTrajectoryX IET.boshernitzanNoPeriodicTrajectory
  rw [forget_next, forget_saf0]
  congr 1
  funext ⟨zero, E⟩
  simp only
  split
  · rfl
  · split
    · rfl
    · unfold IET.boshernitzanSpace Outcome.forget
      simp only [bind, Except.bind, pure, Except.pure]
      cases E.boshernitzanEquations O s with
      | error e => rfl
      | ok r =>
        simp only
        cases Subspace.ofEquations r (List.replicate r.length 0) with
        | error e => rfl
        | ok V =>
          simp only
          cases V.hasNonZeroNonNegativeVector L with
          | error e => rfl
          | ok b => rfl

theorem forget_trackStep (z : Bool) (E : IET T) (s : σ) : forget (E.trackStepX O z s) = E.trackStep O z s := by
  unfold IET.trackStepX IET.trackStep
  split
  · rw [forget_next, forget_saf]
    congr 1
    funext ⟨v, E⟩
    simp only
    split
    · rfl
    · exact forget_atomic _ _
  · rfl

theorem forget_induceLoop (z : Bool) : ∀ (n : ℕ) (E : IET T) (s : σ), forget (IET.induceLoopX O z n E s) = IET.induceLoop O z n E s
  | 0, _, _ => rfl
  | n + 1, E, s => by
    unfold IET.induceLoopX IET.induceLoop
    rw [← forget_trackStep]
    rcases E.trackStepX O z s with ⟨e | b, E₁⟩
    · rfl
    · cases b with
      | true => rfl
      | false =>
        simp only [forget_ok, forget_next, forget_atomic, bind, Except.bind, Bool.false_eq_true, if_false]
        rcases E₁.zorichInduction O s with e | ⟨found, E₂, s₂⟩
        · rfl
        · simp only
          cases found with
          | true => rfl
          | false =>
            simp only [forget_next, forget_atomic, bind, Except.bind, Bool.false_eq_true, if_false]
            rcases E₂.swap.zorichInduction O s₂ with e | ⟨found, E₃, s₃⟩
            · rfl
            · simp only
              cases found with
              | true => rfl
              | false => exact forget_induceLoop z n _ _

theorem forget_inducePhase (fuel : ℕ) (limit : ℤ) (E : IET T) (s : σ) : forget (E.inducePhaseX O fuel limit s) = E.inducePhase O fuel limit s := by
  unfold IET.inducePhaseX IET.inducePhase
  split
  · rfl
  · rw [← forget_saf0]
    rcases E.saf0X O s with ⟨e | b, E₁⟩
    · rfl
    · simp only [forget_ok, bind, Except.bind]
      split
      · rw [forget_next, forget_induceLoop]
        congr 1
        funext ⟨r, S⟩
        simp only
        split <;> rfl
      · exact forget_induceLoop b _ _ _

theorem forget_induceFinish (L : PPL) (found : Bool) (E : IET T) (s : σ) : forget (E.induceFinishX L O found s) = E.induceFinish L O found s := by
  unfold IET.induceFinishX IET.induceFinish
  rw [forget_next, forget_atomic]
  congr 1
  funext ⟨right, E⟩
  simp only
  cases right with
  | some right =>
    simp only
    rcases E.bottom.getLast? with - | b
    · rfl
    · rcases E.top.getLast? with - | t <;> rfl
  | none =>
    simp only
    rcases E.top with - | ⟨t, top⟩
    · rfl
    · rcases E.bottom with - | ⟨b, bottom⟩
      · rfl
      · simp only
        rcases O.cmp2 t b s with e | cmp
        · rfl
        · simp only [bind, Except.bind]
          split
          · rfl
          · cases found with
            | true => rfl
            | false =>
              simp only [Bool.not_false, assertM, if_true, Bool.false_eq_true, if_false, forget_next, forget_bosh, bind, Except.bind]
              rcases E.boshernitzanNoPeriodicTrajectory L O s with e | ⟨b, E⟩
              · rfl
              · simp only
                split <;> rfl

theorem forget_induce (L : PPL) (fuel : ℕ) (limit : ℤ) (E : IET T) (s : σ) : forget (E.induceX L O fuel limit s) = E.induce L O fuel limit s := by
  unfold IET.induceX IET.induce
  split
  · rfl
  · rw [forget_next, forget_inducePhase]
    congr 1
    funext ⟨r, E, s⟩
    simp only
    split
    · rfl
    · rw [← forget_induceFinish]
      rcases E.induceFinishX L O (decide (r = .found)) s with ⟨e | b, E₁⟩ <;> rfl

theorem forget_call (L : PPL) (fuel : ℕ) (op : Op) (E : IET T) (s : σ) : forget (op.callX L O fuel E s) = op.call L O fuel E s := by
  cases op with
  | zorichInduction i =>
    simp only [Op.callX, Op.call]
    rw [forget_next, forget_atomic]
    rfl
  | swap i => rfl
  | reduce i =>
    simp only [Op.callX, Op.call]
    rcases E.reduce O s with e | ⟨R, E⟩ <;> rfl
  | induce i limit =>
    simp only [Op.callX, Op.call]
    rw [forget_next, forget_induce]
    rfl
  | safInvariant i =>
    simp only [Op.callX, Op.call]
    rw [← forget_safInvariant]
    rcases E.safInvariantX O s with ⟨e | b, E₁⟩ <;> rfl
  | boshernitzanNoPeriodicTrajectory i =>
    simp only [Op.callX, Op.call]
    rw [← forget_bosh]
    rcases E.boshernitzanNoPeriodicTrajectoryX L O s with ⟨e | b, E₁⟩ <;> rfl

theorem forget_exec (L : PPL) (fuel : ℕ) (op : Op) (w : World σ T) :
    forget (op.execX L O fuel w) = (op.exec L O fuel w).map (fun w => ((), w)) := by
  unfold Op.execX Op.exec
  cases w.pieces[op.index]? with
  | none => rfl
  | some E =>
    simp only
    rw [← forget_call]
    rcases op.callX L O fuel E w.lengths with ⟨e | new, E, s⟩ <;> rfl

/-! ### Functions which return the same unless they throw -/

namespace SameUnless

variable {α β : Type} {P : Err → Prop}

theorem rfl' (x : M α) : SameUnless P x x := .inl rfl

theorem bind {x y : M α} {k l : α → M β} (h : SameUnless P x y) (hk : ∀ a, SameUnless P (k a) (l a)) : SameUnless P (x >>= k) (y >>= l) := by
  rcases h with rfl | ⟨e, h1, rfl⟩
  · cases x with
    | error e => exact .inl rfl
    | ok a => exact hk a
  · exact .inr ⟨e, h1, rfl⟩

end SameUnless

/-- `f'` returns the same as `f`, except when `f` throws. -/
def Extends (f f' : List Label → σ → M (List (List ℚ))) : Prop :=
  ∀ l s, SameUnless (Throws f) (f l s) (f' l s)

variable (hf : Extends f f')

include hf

theorem sameUnless_labelToCoefficients (E : IET T) (s : σ) :
    SameUnless (Throws f) (E.labelToCoefficients (O.rebase f) s) (E.labelToCoefficients (O.rebase f') s) :=
  (hf E.top s).bind (fun _ => .rfl' _)

theorem sameUnless_translations (E : IET T) (s : σ) :
    SameUnless (Throws f) (E.translations (O.rebase f) s) (E.translations (O.rebase f') s) :=
  (sameUnless_labelToCoefficients hf E s).bind (fun _ => .rfl' _)

theorem sameUnless_rawSaf (E : IET T) (s : σ) : SameUnless (Throws f) (E.rawSaf (O.rebase f) s) (E.rawSaf (O.rebase f') s) := by
  unfold IET.rawSaf
  refine SameUnless.bind (hf E.top s) ?_
  intro cs
  cases cs with
  | nil => exact .rfl' _
  | cons c cs =>
    simp only
    split
    · exact .rfl' _
    · exact (sameUnless_translations hf E s).bind (fun _ => .rfl' _)

theorem sameUnless_saf (E : IET T) (s : σ) : SameUnless (Throws f) (E.saf (O.rebase f) s) (E.saf (O.rebase f') s) := by
  unfold IET.saf
  cases E.safCache with
  | some v => exact .rfl' _
  | none => exact (sameUnless_rawSaf hf E s).bind (fun _ => .rfl' _)

theorem sameUnless_equations (E : IET T) (s : σ) :
    SameUnless (Throws f) (E.boshernitzanEquations (O.rebase f) s) (E.boshernitzanEquations (O.rebase f') s) :=
  (sameUnless_translations hf E s).bind (fun _ => .rfl' _)

theorem sameUnless_space (L : PPL) (E : IET T) (s : σ) :
    SameUnless (Throws f) (E.boshernitzanSpace L (O.rebase f) s) (E.boshernitzanSpace L (O.rebase f') s) :=
  (sameUnless_equations hf E s).bind (fun _ => .rfl' _)

theorem safX_cases (E : IET T) (s : σ) :
    E.safX (O.rebase f) s = E.safX (O.rebase f') s ∨ ∃ e, Throws f e ∧ E.safX (O.rebase f) s = (.error e, E) := by
  unfold IET.safX
  rcases sameUnless_saf hf E s with h | ⟨e, h1, h2⟩
  · exact .inl (by rw [h])
  · exact .inr ⟨e, h1, by rw [h2]; rfl⟩

theorem saf0X_cases (E : IET T) (s : σ) :
    E.saf0X (O.rebase f) s = E.saf0X (O.rebase f') s ∨ ∃ e, Throws f e ∧ E.saf0X (O.rebase f) s = (.error e, E) := by
  unfold IET.saf0X
  rcases safX_cases hf E s with h | ⟨e, h1, h2⟩
  · exact .inl (by rw [h])
  · exact .inr ⟨e, h1, by rw [h2]; rfl⟩

theorem safInvariantX_cases (E : IET T) (s : σ) :
    E.safInvariantX (O.rebase f) s = E.safInvariantX (O.rebase f') s ∨ ∃ e, Throws f e ∧ E.safInvariantX (O.rebase f) s = (.error e, E) := by
  unfold IET.safInvariantX
  rcases safX_cases hf E s with h | ⟨e, h1, h2⟩
  · exact .inl (by rw [h])
  · exact .inr ⟨e, h1, by rw [h2]; rfl⟩

/-- The criterion throws either before or after it has filled the cache. -/
theorem boshX_cases (L : PPL) (E : IET T) (s : σ) :
    E.boshernitzanNoPeriodicTrajectoryX L (O.rebase f) s = E.boshernitzanNoPeriodicTrajectoryX L (O.rebase f') s ∨
    (∃ e, Throws f e ∧ E.safCache = none ∧ E.boshernitzanNoPeriodicTrajectoryX L (O.rebase f) s = (.error e, E)) ∨
    ∃ e, Throws f e ∧ E.boshernitzanNoPeriodicTrajectoryX L (O.rebase f) s =
      (.error e, (E.boshernitzanNoPeriodicTrajectoryX L (O.rebase f') s).2) := by
  unfold IET.boshernitzanNoPeriodicTrajectoryX
  rcases saf0X_cases hf E s with h | ⟨e, h1, h2⟩
  · rw [h]
    rcases E.saf0X (O.rebase f') s with ⟨e | zero, E₁⟩
    · exact .inl rfl
    · simp only [Outcome.next]
      split
      · exact .inl rfl
      · split
        · exact .inl rfl
        · rcases sameUnless_space hf L E₁ s with h | ⟨e, h1, h2⟩
          · exact .inl (by rw [h])
          · exact .inr (.inr ⟨e, h1, by rw [h2]⟩)
  · refine .inr (.inl ⟨e, h1, ?_, by rw [h2]; rfl⟩)
    cases hE : E.safCache with
    | none => rfl
    | some v =>
      unfold IET.saf0X IET.safX IET.saf at h2
      rw [hE] at h2
      simp [Outcome.atomic, Outcome.next] at h2

omit hf

/-! ### Once the SAF invariant is cached -/

theorem saf_of_cache {E : IET T} {v : List ℚ} (h : E.safCache = some v) (s : σ) : E.saf O s = .ok (v, E) := by
  unfold IET.saf
  rw [h]

theorem saf0X_cached {E E₁ : IET T} {s : σ} {z : Bool} (h : E.saf0X O s = (.ok z, E₁)) : E₁.safCache ≠ none := by
  unfold IET.saf0X IET.safX at h
  rcases hs : E.saf O s with e | ⟨v, E₂⟩
  · rw [hs] at h
    simp [Outcome.atomic, Outcome.next] at h
  · rw [hs] at h
    simp only [Outcome.atomic, Outcome.next, Prod.mk.injEq] at h
    rw [← h.2]
    unfold IET.saf at hs
    cases hE : E.safCache with
    | some w =>
      rw [hE] at hs
      cases hs
      rw [hE]; simp
    | none =>
      rw [hE] at hs
      simp only [bind, Except.bind] at hs
      split at hs
      · cases hs
      · cases hs; simp

theorem zorich_keeps_cache {E E' : IET T} {s s' : σ} {r : Bool} (h : E.zorichInduction O s = .ok (r, E', s')) : E'.safCache = E.safCache := by
  unfold IET.zorichInduction at h
  split at h
  · split at h
    · cases h; rfl
    · simp only [bind, Except.bind] at h
      split at h
      · cases h
      · split at h
        · cases h
        · split at h
          · cases h
          · split at h
            · cases h
            · cases h; rfl
  · cases h

theorem trackerLoop_keeps_cache {E E' : IET T} {s : σ} {r : Bool} (h : E.trackerLoop O s = .ok (r, E')) : E'.safCache = E.safCache := by
  unfold IET.trackerLoop at h
  simp only [bind, Except.bind] at h
  split at h
  · split at h
    · cases h
    · cases h; rfl
  · split at h
    · cases h; rfl
    · split at h
      · cases h
      · split at h
        · cases h; rfl
        · split at h
          · cases h
          · cases h; rfl

theorem trackStepX_cached {E : IET T} (h : E.safCache ≠ none) (z : Bool) (s : σ) :
    E.trackStepX (O.rebase f) z s = E.trackStepX (O.rebase f') z s ∧ (E.trackStepX (O.rebase f') z s).2.safCache ≠ none := by
  obtain ⟨v, hv⟩ := Option.ne_none_iff_exists'.1 h
  unfold IET.trackStepX IET.safX
  simp only [saf_of_cache hv, Outcome.atomic, Outcome.next, trackerLoop_rebase]
  refine ⟨trivial, ?_⟩
  split
  · split
    · exact h
    · rcases ht : E.trackerLoop O s with e | ⟨r, E'⟩
      · exact h
      · simp only
        rw [trackerLoop_keeps_cache ht]
        exact h
  · exact h

theorem induceLoopX_cached (z : Bool) : ∀ (n : ℕ) {E : IET T} (s : σ), E.safCache ≠ none →
    IET.induceLoopX (O.rebase f) z n E s = IET.induceLoopX (O.rebase f') z n E s ∧ (IET.induceLoopX (O.rebase f') z n E s).2.1.safCache ≠ none
  | 0, E, s, h => ⟨rfl, h⟩
  | n + 1, E, s, h => by
    obtain ⟨h1, h2⟩ := trackStepX_cached (O := O) (f := f) (f' := f') h z s
    unfold IET.induceLoopX
    rw [h1]
    revert h2
    rcases E.trackStepX (O.rebase f') z s with ⟨e | b, E₁⟩
    · exact fun h2 => ⟨rfl, h2⟩
    · cases b with
      | true => exact fun h2 => ⟨rfl, h2⟩
      | false =>
        intro h2
        simp only [zorich_rebase]
        rcases hz : E₁.zorichInduction O s with e | ⟨found, E₂, s₂⟩
        · exact ⟨rfl, h2⟩
        · have h3 : E₂.safCache ≠ none := by rw [zorich_keeps_cache hz]; exact h2
          simp only [Outcome.atomic, Outcome.next]
          cases found with
          | true => exact ⟨rfl, h3⟩
          | false =>
            simp only [Bool.false_eq_true, if_false]
            rcases hz' : E₂.swap.zorichInduction O s₂ with e | ⟨found, E₃, s₃⟩
            · exact ⟨rfl, h3⟩
            · have h4 : E₃.safCache ≠ none := by rw [zorich_keeps_cache hz']; exact h3
              simp only
              cases found with
              | true => exact ⟨rfl, h4⟩
              | false => exact induceLoopX_cached z n (E := E₃.swap) s₃ h4

include hf

theorem inducePhaseX_cases (fuel : ℕ) (limit : ℤ) (E : IET T) (s : σ) :
    (E.inducePhaseX (O.rebase f) fuel limit s = E.inducePhaseX (O.rebase f') fuel limit s ∧
      (∀ r E₁ s₁, E.inducePhaseX (O.rebase f') fuel limit s = (.ok r, E₁, s₁) → E₁.safCache ≠ none ∨ (E₁ = E ∧ s₁ = s))) ∨
    ∃ e, Throws f e ∧ E.inducePhaseX (O.rebase f) fuel limit s = (.error e, E, s) := by
  unfold IET.inducePhaseX
  split
  · exact .inl ⟨rfl, fun r E₁ s₁ h => by cases h; exact .inr ⟨rfl, rfl⟩⟩
  · rcases saf0X_cases hf E s with h | ⟨e, h1, h2⟩
    · left
      rw [h]
      rcases hs : E.saf0X (O.rebase f') s with ⟨e | b, E₁⟩
      · exact ⟨rfl, fun r E₁ s₁ h => by cases h⟩
      · have hc := saf0X_cached hs
        simp only
        split
        · obtain ⟨k1, k2⟩ := induceLoopX_cached (O := O) (f := f) (f' := f') b fuel (E := E₁) s hc
          rw [k1]
          refine ⟨rfl, ?_⟩
          revert k2
          rcases IET.induceLoopX (O.rebase f') b fuel E₁ s with ⟨e | r, E₂, s₂⟩
          · intro _ r E₁ s₁ h; cases h
          · intro k2 r' E₃ s₃ h
            simp only [Outcome.next] at h
            split at h
            · cases h
            · cases h; exact .inl k2
        · obtain ⟨k1, k2⟩ := induceLoopX_cached (O := O) (f := f) (f' := f') b limit.toNat (E := E₁) s hc
          rw [k1]
          exact ⟨rfl, fun r E₂ s₂ h => .inl (by rw [h] at k2; exact k2)⟩
    · right
      rw [h2]
      exact ⟨e, h1, rfl⟩

omit hf in
/-- An unlimited loop is not exhausted. -/
theorem inducePhaseX_unlimited (fuel : ℕ) (E E₁ : IET T) (s s₁ : σ) (h : E.inducePhaseX O fuel (-1) s = (.ok .exhausted, E₁, s₁)) : False := by
  unfold IET.inducePhaseX at h
  rw [if_neg (by decide)] at h
  generalize E.saf0X O s = x at h
  rcases x with ⟨e | b, E₁⟩
  · cases h
  · simp only [if_true] at h
    generalize IET.induceLoopX O b fuel E₁ s = x at h
    rcases x with ⟨e | r, S⟩
    · cases h
    · simp only [Outcome.next] at h
      split at h
      · cases h
      · rename_i hr
        cases h
        exact hr rfl

/-- What `induce` leaves behind when it throws. -/
theorem induceX_cases (L : PPL) (fuel : ℕ) (limit : ℤ) (E : IET T) (s : σ) :
    E.induceX L (O.rebase f) fuel limit s = E.induceX L (O.rebase f') fuel limit s ∨
    (∃ e, Throws f e ∧ E.induceX L (O.rebase f) fuel limit s = (.error e, E, s)) ∨
    ∃ e, Throws f e ∧ E.induceX L (O.rebase f) fuel limit s = (.error e, (E.induceX L (O.rebase f') fuel limit s).2) ∧ limit ≠ -1 ∧
      ∀ step, (E.induceX L (O.rebase f') fuel limit s).1 = .ok step →
        step = { result := .limitReached } ∨ step = { result := .withoutPeriodicTrajectoryBoshernitzan } := by
  unfold IET.induceX
  split
  · exact .inl rfl
  · rcases inducePhaseX_cases (O := O) hf fuel limit E s with ⟨h1, h2⟩ | ⟨e, h1, h2⟩
    · rw [h1]
      rcases hp : E.inducePhaseX (O.rebase f') fuel limit s with ⟨e | r, E₁, s₁⟩
      · exact .inl rfl
      · have hc := h2 _ _ _ hp
        simp only [Outcome.next]
        split
        · exact .inl rfl
        · unfold IET.induceFinishX
          simp only [reduce_rebase]
          rcases hr : E₁.reduce O s₁ with e | ⟨right, E₂⟩
          · exact .inl rfl
          · simp only [Outcome.atomic, Outcome.next]
            cases right with
            | some right => exact .inl rfl
            | none =>
              have hE : E₂ = E₁ := by
                unfold IET.reduce at hr
                simp only [bind, Except.bind] at hr
                split at hr
                · cases hr
                · split at hr
                  · split at hr
                    · cases hr
                    · cases hr; rfl
                  · split at hr
                    · cases hr
                    · split at hr
                      · cases hr
                      · cases hr
              subst hE
              simp only
              rcases E₂.top with - | ⟨t, top⟩
              · exact .inl rfl
              · rcases E₂.bottom with - | ⟨b, bottom⟩
                · exact .inl rfl
                · simp only
                  have : (O.rebase f).cmp2 t b s₁ = (O.rebase f').cmp2 t b s₁ := rfl
                  rw [this]
                  rcases (O.rebase f').cmp2 t b s₁ with e | cmp
                  · exact .inl rfl
                  · simp only
                    split
                    · exact .inl rfl
                    · split
                      · exact .inl rfl
                      · rcases boshX_cases (O := O) hf L E₂ s₁ with h | ⟨e, g1, g2, g3⟩ | ⟨e, g1, g2⟩
                        · exact .inl (by rw [h])
                        · right; left
                          rcases hc with hc | ⟨rfl, rfl⟩
                          · exact absurd g2 hc
                          · exact ⟨e, g1, by rw [g3]⟩
                        · right; right
                          refine ⟨e, g1, ?_, ?_, ?_⟩
                          · rw [g2]
                            rcases E₂.boshernitzanNoPeriodicTrajectoryX L (O.rebase f') s₁ with ⟨e | b, E₃⟩
                            · rfl
                            · simp only
                              cases b <;> rfl
                          · rintro rfl
                            have hr : r = .exhausted := by cases r <;> simp_all
                            rw [hr] at hp
                            exact inducePhaseX_unlimited _ _ _ _ _ hp
                          · rcases E₂.boshernitzanNoPeriodicTrajectoryX L (O.rebase f') s₁ with ⟨e | b, E₃⟩
                            · intro step h; cases h
                            · cases b with
                              | true => intro step h; cases h; exact .inr rfl
                              | false => intro step h; cases h; exact .inl rfl
    · right; left
      rw [h2]
      exact ⟨e, h1, rfl⟩

/-- What a call leaves behind when it throws. -/
theorem callX_cases (L : PPL) (fuel : ℕ) (op : Op) (E : IET T) (s : σ) :
    op.callX L (O.rebase f) fuel E s = op.callX L (O.rebase f') fuel E s ∨
    (∃ e, Throws f e ∧ op.callX L (O.rebase f) fuel E s = (.error e, E, s)) ∨
    ∃ e, Throws f e ∧ op.callX L (O.rebase f) fuel E s = (.error e, (op.callX L (O.rebase f') fuel E s).2) ∧ (∀ i, op ≠ .induce i (-1)) ∧
      ∀ new, (op.callX L (O.rebase f') fuel E s).1 = .ok new → new = [] := by
  cases op with
  | zorichInduction i => left; simp only [Op.callX, zorich_rebase]
  | swap i => exact .inl rfl
  | reduce i => exact .inl rfl
  | induce i limit =>
    simp only [Op.callX]
    rcases induceX_cases (O := O) hf L fuel limit E s with h | ⟨e, h1, h2⟩ | ⟨e, h1, h2, h4, h3⟩
    · exact .inl (by rw [h])
    · right; left; rw [h2]; exact ⟨e, h1, rfl⟩
    · right; right
      rw [h2]
      refine ⟨e, h1, ?_, fun _ hi => h4 (by cases hi; rfl), ?_⟩
      · rcases E.induceX L (O.rebase f') fuel limit s with ⟨e | st, S⟩ <;> rfl
      · revert h3
        rcases E.induceX L (O.rebase f') fuel limit s with ⟨e | st, S⟩
        · intro _ new h; cases h
        · intro h3 new h
          cases h
          rcases h3 st rfl with h | h <;> rw [h] <;> rfl
  | safInvariant i =>
    simp only [Op.callX]
    rcases safInvariantX_cases (O := O) hf E s with h | ⟨e, h1, h2⟩
    · exact .inl (by rw [h])
    · right; left; rw [h2]; exact ⟨e, h1, rfl⟩
  | boshernitzanNoPeriodicTrajectory i =>
    simp only [Op.callX]
    rcases boshX_cases (O := O) hf L E s with h | ⟨e, h1, _, h2⟩ | ⟨e, h1, h2⟩
    · exact .inl (by rw [h])
    · right; left; rw [h2]; exact ⟨e, h1, rfl⟩
    · right; right
      rw [h2]
      refine ⟨e, h1, rfl, by simp, ?_⟩
      rcases E.boshernitzanNoPeriodicTrajectoryX L (O.rebase f') s with ⟨e | b, E₁⟩
      · intro new h; cases h
      · intro new h; cases h; rfl

/-- What a call leaves behind when it throws. -/
theorem execX_cases (L : PPL) (fuel : ℕ) (op : Op) (w : World σ T) :
    op.execX L (O.rebase f) fuel w = op.execX L (O.rebase f') fuel w ∨
    (∃ e, Throws f e ∧ op.execX L (O.rebase f) fuel w = (.error e, w)) ∨
    ∃ e, Throws f e ∧ op.execX L (O.rebase f) fuel w = (.error e, (op.execX L (O.rebase f') fuel w).2) ∧ ∀ i, op ≠ .induce i (-1) := by
  unfold Op.execX
  rcases hE : w.pieces[op.index]? with - | E
  · exact .inl rfl
  · simp only
    rcases callX_cases (O := O) hf L fuel op E w.lengths with h | ⟨e, h1, h2⟩ | ⟨e, h1, h2, h4, h3⟩
    · exact .inl (by rw [h])
    · right; left
      rw [h2]
      refine ⟨e, h1, ?_⟩
      simp only
      obtain ⟨hi, hE⟩ := List.getElem?_eq_some_iff.1 hE
      rw [← hE, List.set_getElem_self]
    · right; right
      rw [h2]
      refine ⟨e, h1, ?_, h4⟩
      revert h3
      rcases op.callX L (O.rebase f') fuel E w.lengths with ⟨e | new, E₁, s₁⟩
      · intro _; rfl
      · intro h3
        rw [h3 new rfl]
        simp only [List.append_nil]

theorem sameUnless_noSaddle₂ (L : PPL) (E : IET T) (t b : Label) (s : σ) :
    SameUnless (Throws f) (E.boshernitzanNoSaddleConnection₂ L (O.rebase f) t b s) (E.boshernitzanNoSaddleConnection₂ L (O.rebase f') t b s) := by
  unfold IET.boshernitzanNoSaddleConnection₂
  refine SameUnless.bind ?_ (fun v => ?_)
  · unfold IET.boshernitzanSaddleConnectionValues
    refine SameUnless.bind (.rfl' _) (fun t => ?_)
    cases t with
    | none => exact .rfl' _
    | some t =>
      refine SameUnless.bind (.rfl' _) (fun b => ?_)
      cases b with
      | none => exact .rfl' _
      | some b => exact (sameUnless_labelToCoefficients hf E s).bind (fun _ => .rfl' _)
  · split
    · exact .rfl' _
    · exact (sameUnless_equations hf E s).bind (fun _ => .rfl' _)

omit hf in
theorem sameUnless_allM {α : Type} {P : Err → Prop} {g g' : α → M Bool} (h : ∀ a, SameUnless P (g a) (g' a)) :
    ∀ l : List α, SameUnless P (IET.allM g l) (IET.allM g' l)
  | [] => .rfl' _
  | a :: l => by
    unfold IET.allM
    refine (h a).bind (fun b => ?_)
    split
    · exact sameUnless_allM h l
    · exact .rfl' _

theorem sameUnless_noSaddle (L : PPL) (E : IET T) (s : σ) :
    SameUnless (Throws f) (E.boshernitzanNoSaddleConnection L (O.rebase f) s) (E.boshernitzanNoSaddleConnection L (O.rebase f') s) := by
  unfold IET.boshernitzanNoSaddleConnection
  split
  · exact .rfl' _
  · exact sameUnless_allM (fun t => sameUnless_allM (fun b => sameUnless_noSaddle₂ hf L E t b s) _) _

end Verif
