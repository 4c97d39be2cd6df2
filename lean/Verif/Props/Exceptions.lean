import Verif.Proofs.Exceptions
import Verif.Props.Rounds
import Verif.Props.Basis
import Verif.Props.Coefficients

/-!
# C86: an exception thrown by coefficients() leaves IETs in a valid state

`coefficients()` is called in the middle of `induce` and it can throw (C65).  A user may catch the exception and go on using the IETs.
-/

namespace Verif

set_option linter.unusedSectionVars false

variable {σ T ε : Type} [CommRing T] [LinearOrder T] [IsStrictOrderedRing T] {O : LengthsOps σ T} {d : ℕ} {c : T →+ (Fin d → ℚ)}
  {f : List Label → σ → M (List (List ℚ))}

/-- Coordinates without exceptions. -/
def completion (O : LengthsOps σ T) (f : List Label → σ → M (List (List ℚ))) (l : List Label) (s : σ) : M (List (List ℚ)) :=
  match f l s with
  | .ok v => .ok v
  | .error _ => O.coefficients l s

theorem completion_extends : Extends f (completion O f) := by
  intro l s
  unfold completion
  cases h : f l s with
  | ok v => exact .inl rfl
  | error e => exact .inr ⟨e, ⟨l, s, h⟩, rfl⟩

/-- The coordinates over a fixed basis are coordinates. -/
theorem LawfulLengths.coordinates_self (H : LawfulLengths O c ε) (hc : ∀ x, c x = 0 → x = 0) : H.Coordinates O.coefficients := by
  intro s l hs hl _
  refine ⟨d, fun x => c (H.len s x), H.coefficients_spec s l hs hl, fun n => ?_⟩
  have : ∀ l : List Label, (l.map (fun x => n x • c (H.len s x))).sum = c ((l.map (fun x => n x • H.len s x)).sum) := by
    intro l
    induction l with
    | nil => simp
    | cons a l ih => rw [List.map_cons, List.sum_cons, List.map_cons, List.sum_cons, map_add, map_zsmul, ih]
  rw [this]
  exact ⟨hc _, fun h => by rw [h, map_zero]⟩

theorem LawfulLengths.CoordinatesOrException.completion {H : LawfulLengths O c ε} (hf : H.CoordinatesOrException f) (hc : ∀ x, c x = 0 → x = 0) :
    H.Coordinates (completion O f) := by
  intro s l hs hl hn
  unfold Verif.completion
  rcases hf.2 s l hs hl hn with ⟨e, h⟩ | ⟨d', w, h1, h2⟩
  · obtain ⟨d', w, h1, h2⟩ := H.coordinates_self hc s l hs hl hn
    exact ⟨d', w, by rw [h]; exact h1, h2⟩
  · exact ⟨d', w, by rw [h1], h2⟩

theorem execX_ok {O : LengthsOps σ T} {L : PPL} {fuel : ℕ} {op : Op} {w w' : World σ T} (h : op.execX L O fuel w = (.ok (), w')) : op.exec L O fuel w = .ok w' := by
  have := forget_exec (O := O) L fuel op w
  rw [h, Outcome.forget_ok] at this
  cases hx : op.exec L O fuel w with
  | error e => rw [hx] at this; cases this
  | ok w₁ => rw [hx] at this; cases this; rfl

theorem execX_error {O : LengthsOps σ T} {L : PPL} {fuel : ℕ} {op : Op} {w w' : World σ T} {e : Err} (h : op.execX L O fuel w = (.error e, w')) :
    op.exec L O fuel w = .error e := by
  have := forget_exec (O := O) L fuel op w
  rw [h, Outcome.forget_error] at this
  cases hx : op.exec L O fuel w with
  | error e => rw [hx] at this; cases this; rfl
  | ok w₁ => rw [hx] at this; cases this

/-- Without exceptions calls return. -/
theorem AlikeWorld.execX {H : LawfulLengths O c ε} (hf : H.Coordinates f) (hc : ∀ x, c x = 0 → x = 0) {L : PPL} (hL : L.Lawful) {w w₀ : World σ T}
    (hr : Reachable H L w₀) (h : AlikeWorld H w w₀) (fuel : ℕ) (op : Op) :
    ((op.execX L (O.rebase f) fuel w).1 = .error .fuel ∧ ∃ i, op = .induce i (-1)) ∨
    ∃ w' w₀', op.execX L (O.rebase f) fuel w = (.ok (), w') ∧ Reachable H L w₀' ∧ AlikeWorld H w' w₀' := by
  have hx := h.exec hf hc hL fuel op
  rcases hy : op.execX L (O.rebase f) fuel w with ⟨e | u, w'⟩
  · left
    have h1 := execX_error hy
    rcases Op.exec_spec H hL fuel op w₀ (hr.ok hL) with ⟨h2, h3⟩ | ⟨w₁, h2, _⟩
    · rw [h1, h2] at hx
      cases (show e = .fuel from hx)
      exact ⟨rfl, h3⟩
    · rw [h1, h2] at hx; exact hx.elim
  · right
    have h1 := execX_ok hy
    obtain ⟨w₀', h2, h3⟩ := hx.ok_left h1
    exact ⟨w', w₀', rfl, .step fuel op hr h2, h3⟩

theorem CatchReach.alike {H : LawfulLengths O c ε} (hf : H.CoordinatesOrException f) (hc : ∀ x, c x = 0 → x = 0) {L : PPL} (hL : L.Lawful)
    {w : World σ T} (h : CatchReach H f L w) : ∃ w₀, Reachable H L w₀ ∧ AlikeWorld H w w₀ := by
  induction h with
  | @init pieces s h1 h2 => exact ⟨_, .init h1 h2, BothBases.alike (H := H) (hf.completion hc) hc hL (BothBases.init h1 h2)⟩
  | @call w w' r fuel op _ he hr ih =>
    obtain ⟨w₀, hw, ha⟩ := ih
    have hx := ha.execX (hf.completion hc) hc hL hw fuel op
    rcases execX_cases (O := O) (completion_extends (O := O)) L fuel op w with h | ⟨e, h1, h2⟩ | ⟨e, h1, h2, h3⟩
    · rw [he] at h
      rcases hx with ⟨k1, -⟩ | ⟨w₁, w₁', k1, k2, k3⟩
      · rw [← h] at k1; exact absurd k1 hr
      · rw [← h] at k1; cases k1; exact ⟨w₁', k2, k3⟩
    · rw [he] at h2; cases h2; exact ⟨w₀, hw, ha⟩
    · rw [he] at h2
      rcases hx with ⟨-, i, k1⟩ | ⟨w₁, w₁', k1, k2, k3⟩
      · exact absurd k1 (h3 i)
      · rw [k1] at h2; cases h2; exact ⟨w₁', k2, k3⟩

theorem SameUnless.trans_eq {α : Type} {P : Err → Prop} {x y z : M α} (h : SameUnless P x y) (e : y = z) : SameUnless P x z := e ▸ h

theorem SameUnless.map {α β : Type} {P : Err → Prop} {x y : M α} (h : SameUnless P x y) (g : α → β) : SameUnless P (x.map g) (y.map g) := by
  rcases h with rfl | ⟨e, h1, rfl⟩
  · exact .inl rfl
  · exact .inr ⟨e, h1, rfl⟩

theorem SameUnless.of_outcome {S α : Type} {P : Err → Prop} {x y : Outcome S α} (h : x = y ∨ ∃ e, P e ∧ x.1 = .error e) : SameUnless P x.forget y.forget := by
  rcases h with rfl | ⟨e, h1, h2⟩
  · exact .inl rfl
  · exact .inr ⟨e, h1, Outcome.forget_eq_error.2 h2⟩

/-- **C86.** Whatever exceptions have been thrown and caught, the IETs and the lengths are in a state that can also be reached without any exceptions: the
IETs have the same labels in the same order as some IETs with the same lengths that have never seen an exception.  All functions return the same for them
as for those, unless `coefficients()` throws again.  (The entries of the SAF invariant depend on the basis, but not whether they are zero.) -/
theorem C86_valid (H : LawfulLengths O c ε) (hf : H.CoordinatesOrException f) (hc : ∀ x, c x = 0 → x = 0) {L : PPL} (hL : L.Lawful) {w : World σ T}
    (h : CatchReach H f L w) :
    ∃ w₀, Reachable H L w₀ ∧ w.lengths = w₀.lengths ∧ List.Forall₂ IET.SameLabels w.pieces w₀.pieces ∧
      ∀ (i : ℕ) (E F : IET T), w.pieces[i]? = some E → w₀.pieces[i]? = some F →
        (∀ fuel limit, SameUnless (Throws f) ((E.induce L (O.rebase f) fuel limit w.lengths).map Prod.fst) ((F.induce L O fuel limit w₀.lengths).map Prod.fst)) ∧
        SameUnless (Throws f) ((E.boshernitzanNoPeriodicTrajectory L (O.rebase f) w.lengths).map Prod.fst)
          ((F.boshernitzanNoPeriodicTrajectory L O w₀.lengths).map Prod.fst) ∧
        SameUnless (Throws f) (E.boshernitzanNoSaddleConnection L (O.rebase f) w.lengths) (F.boshernitzanNoSaddleConnection L O w₀.lengths) ∧
        (∀ t b, SameUnless (Throws f) (E.boshernitzanNoSaddleConnection₂ L (O.rebase f) t b w.lengths) (F.boshernitzanNoSaddleConnection₂ L O t b w₀.lengths)) ∧
        (∀ v E', E.safInvariant (O.rebase f) w.lengths = .ok (v, E') → ∃ v' F', F.safInvariant O w₀.lengths = .ok (v', F') ∧
          ((∀ a ∈ v, a = 0) ↔ ∀ a ∈ v', a = 0)) ∧
        ∀ e, E.safInvariant (O.rebase f) w.lengths = .error e → Throws f e := by
  obtain ⟨w₀, hw, ha⟩ := h.alike hf hc hL
  have hx : Extends f (completion O f) := completion_extends
  have hf' := hf.completion hc
  refine ⟨w₀, hw, ha.lengths, ha.alike.imp (fun _ _ h => ⟨h.top, h.bottom, h.swapped⟩), ?_⟩
  intro i E F hE hF
  obtain ⟨F', hF', hs⟩ := ha.get hE
  rw [hF] at hF'
  cases hF'
  rw [ha.lengths]
  refine ⟨fun fuel limit => ?_, ?_, ?_, fun t b => ?_, ?_, ?_⟩
  · refine SameUnless.trans_eq (SameUnless.map ?_ _) ((hs.induce hf' hc hL fuel limit).map_fst (fun _ _ h => h.1))
    rw [← forget_induce, ← forget_induce]
    refine SameUnless.of_outcome ?_
    rcases induceX_cases (O := O) hx L fuel limit E w₀.lengths with h | ⟨e, h1, h2⟩ | ⟨e, h1, h2, -⟩
    · exact .inl h
    · exact .inr ⟨e, h1, by rw [h2]⟩
    · exact .inr ⟨e, h1, by rw [h2]⟩
  · refine SameUnless.trans_eq (SameUnless.map ?_ _) ((hs.bosh hf' hc hL).map_fst (fun _ _ h => h.1))
    rw [← forget_bosh, ← forget_bosh]
    refine SameUnless.of_outcome ?_
    rcases boshX_cases (O := O) hx L E w₀.lengths with h | ⟨e, h1, _, h2⟩ | ⟨e, h1, h2⟩
    · exact .inl h
    · exact .inr ⟨e, h1, by rw [h2]⟩
    · exact .inr ⟨e, h1, by rw [h2]⟩
  · exact (sameUnless_noSaddle hx L E _).trans_eq (hs.noSaddle hf' hc hL)
  · exact (sameUnless_noSaddle₂ hx L E t b _).trans_eq (hs.noSaddle₂ hf' hc hL t b)
  · intro v E' he
    have e2 := safInvariant_spec H hs.ok hs.cache
    obtain ⟨⟨v₁, E₁⟩, e1, e3, -⟩ := (hs.safInvariant hf' hc).symm.ok_left e2
    refine ⟨_, _, e2, ?_⟩
    rw [← forget_safInvariant] at he e1
    rcases safInvariantX_cases (O := O) hx E w₀.lengths with h | ⟨e, h1, h2⟩
    · rw [h, e1] at he; cases he; exact e3
    · rw [h2] at he; cases he
  · intro e he
    have e2 := safInvariant_spec H hs.ok hs.cache
    obtain ⟨⟨v₁, E₁⟩, e1, -⟩ := (hs.safInvariant hf' hc).symm.ok_left e2
    rw [← forget_safInvariant] at he e1
    rcases safInvariantX_cases (O := O) hx E w₀.lengths with h | ⟨e, h1, h2⟩
    · rw [h, e1] at he; cases he
    · rw [h2] at he; cases he; exact h1

/-- **C86.** After any exceptions a call returns, or throws an exception that `coefficients()` has thrown, or it is a call to `induce(-1)` that does not
return.  In particular there are no failed assertions and no undefined behaviour. -/
theorem C86_progress (H : LawfulLengths O c ε) (hf : H.CoordinatesOrException f) (hc : ∀ x, c x = 0 → x = 0) {L : PPL} (hL : L.Lawful) {w : World σ T}
    (h : CatchReach H f L w) (fuel : ℕ) (op : Op) :
    (op.execX L (O.rebase f) fuel w).1 = .ok () ∨
    (∃ e, (op.execX L (O.rebase f) fuel w).1 = .error e ∧ Throws f e ∧ e.Exception) ∨
    (op.execX L (O.rebase f) fuel w).1 = .error .fuel ∧ ∃ i, op = .induce i (-1) := by
  obtain ⟨w₀, hw, ha⟩ := h.alike hf hc hL
  have hx := ha.execX (hf.completion hc) hc hL hw fuel op
  rcases execX_cases (O := O) (completion_extends (O := O)) L fuel op w with h | ⟨e, h1, h2⟩ | ⟨e, h1, h2, h3⟩
  · rw [h]
    rcases hx with hx | ⟨w₁, w₁', k1, -⟩
    · exact .inr (.inr hx)
    · exact .inl (by rw [k1])
  · exact .inr (.inl ⟨e, by rw [h2], h1, hf.1 e h1⟩)
  · exact .inr (.inl ⟨e, by rw [h2], h1, hf.1 e h1⟩)

/-- **C86.** When `induce(limit)` throws, then the IET and the lengths are as before the call, or the limit has been reached: exactly `limit` rounds of
Zorich induction have been performed.  `induce(-1)` throws only before it changes anything. -/
theorem C86_induce (H : LawfulLengths O c ε) (hf : H.CoordinatesOrException f) (hc : ∀ x, c x = 0 → x = 0) {L : PPL} (hL : L.Lawful) {w : World σ T}
    (h : CatchReach H f L w) {i : ℕ} {E E' : IET T} {s' : σ} {fuel : ℕ} {limit : ℤ} {e : Err} (hE : w.pieces[i]? = some E)
    (hr : E.induceX L (O.rebase f) fuel limit w.lengths = (.error e, E', s')) (he : e ≠ .fuel) :
    Throws f e ∧ ((E' = E ∧ s' = w.lengths) ∨
      limit ≠ -1 ∧ Iter Round limit.toNat (H.abs E w.lengths) (H.abs E' s') ∧ ¬ (H.abs E' s').Level) := by
  obtain ⟨w₀, hw, ha⟩ := h.alike hf hc hL
  obtain ⟨F, hF, hs⟩ := ha.get hE
  have hl := ha.lengths
  rw [hl] at hr ⊢
  have hi := hs.induce (hf.completion hc) hc hL fuel limit
  have hg := hs.good
  rcases induceX_cases (O := O) (completion_extends (O := O)) L fuel limit E w₀.lengths with h | ⟨e', h1, h2⟩ | ⟨e', h1, h2, h3, h4⟩
  · exfalso
    rw [hr] at h
    have hfi := forget_induce (O := O.rebase (completion O f)) L fuel limit E w₀.lengths
    rw [← h, Outcome.forget_error] at hfi
    rw [← hfi] at hi
    rcases Op.exec_spec H hL fuel (.induce i limit) w₀ (hw.ok hL) with ⟨h2, -⟩ | ⟨w₁, h2, _⟩
    · simp only [Op.exec, Op.index, hF, Op.call] at h2
      cases hx : F.induce L O fuel limit w₀.lengths with
      | error e' =>
        rw [hx] at hi h2
        cases (show e = e' from hi)
        cases h2
        exact he rfl
      | ok b => rw [hx] at hi; exact hi.elim
    · simp only [Op.exec, Op.index, hF, Op.call] at h2
      cases hx : F.induce L O fuel limit w₀.lengths with
      | error e' => rw [hx] at h2; cases h2
      | ok b => rw [hx] at hi; exact hi.elim
  · rw [hr] at h2; cases h2; exact ⟨h1, .inl ⟨rfl, rfl⟩⟩
  · rw [hr] at h2
    refine ⟨?_, .inr ?_⟩
    · have := congrArg Prod.fst h2
      simp only [Except.error.injEq] at this
      rw [this]; exact h1
    · have hfi := forget_induce (O := O.rebase (completion O f)) L fuel limit E w₀.lengths
      rcases hy : E.induceX L (O.rebase (completion O f)) fuel limit w₀.lengths with ⟨e'' | step, E'', s''⟩
      · rw [hy, Outcome.forget_error] at hfi
        rw [← hfi] at hi
        exfalso
        rcases Op.exec_spec H hL fuel (.induce i limit) w₀ (hw.ok hL) with ⟨-, j, h5⟩ | ⟨w₁, h5, _⟩
        · cases h5; exact h3 rfl
        · simp only [Op.exec, Op.index, hF, Op.call] at h5
          cases hx : F.induce L O fuel limit w₀.lengths with
          | error e' => rw [hx] at h5; cases h5
          | ok b => rw [hx] at hi; exact hi.elim
      · rw [hy] at h2 h4
        cases h2
        rw [hy, Outcome.forget_ok] at hfi
        obtain ⟨⟨step', F', t'⟩, k1, k2, k3, -, k4⟩ := hi.ok_left hfi.symm
        simp only at k2 k3 k4
        subst k2 k3
        have hres : step.result = .limitReached ∨ step.result = .withoutPeriodicTrajectoryBoshernitzan := by
          rcases h4 step rfl with e | e
          · left; rw [e]
          · right; rw [e]
        have h52 := C52_all_rounds H hL hw (List.mem_of_getElem? hF) k1 hres
        refine ⟨h52.1, ?_, ?_⟩
        · rw [hs.abs, k4.abs]; exact h52.2.1
        · rw [k4.abs]; exact h52.2.2

/-- **C86.** When one of the other functions throws, then the exception is one thrown by `coefficients()` and no labels and lengths have changed. -/
theorem C86_const (H : LawfulLengths O c ε) (hf : H.CoordinatesOrException f) (hc : ∀ x, c x = 0 → x = 0) {L : PPL} (hL : L.Lawful) {w w' : World σ T}
    (h : CatchReach H f L w) {fuel : ℕ} {op : Op} {e : Err} (hop : ∀ i limit, op ≠ .induce i limit) (hr : op.execX L (O.rebase f) fuel w = (.error e, w')) :
    Throws f e ∧ w'.lengths = w.lengths ∧ List.Forall₂ IET.SameLabels w'.pieces w.pieces := by
  obtain ⟨w₀, hw, ha⟩ := h.alike hf hc hL
  have hx := ha.execX (hf.completion hc) hc hL hw fuel op
  have hsame : List.Forall₂ IET.SameLabels w.pieces w.pieces := List.forall₂_same.2 (fun E _ => ⟨rfl, rfl, rfl⟩)
  rcases execX_cases (O := O) (completion_extends (O := O)) L fuel op w with h | ⟨e', h1, h2⟩ | ⟨e', h1, h2, h3⟩
  · exfalso
    rw [hr] at h
    rw [← h] at hx
    rcases hx with ⟨-, i, hx⟩ | ⟨w₁, w₁', k1, -⟩
    · exact hop _ _ hx
    · cases k1
  · rw [hr] at h2; cases h2
    exact ⟨h1, rfl, hsame⟩
  · rcases hx with ⟨-, i, hx⟩ | ⟨w₁, w₁', k1, -⟩
    · exact absurd hx (h3 i)
    · rw [k1, hr] at h2
      cases h2
      refine ⟨h1, ?_⟩
      unfold Op.execX at hr
      cases hE : w.pieces[op.index]? with
      | none => rw [hE] at hr; cases hr
      | some E =>
        rw [hE] at hr
        simp only at hr
        rcases hcall : op.callX L (O.rebase f) fuel E w.lengths with ⟨e | new, E', s'⟩
        · rw [hcall] at hr
          cases hr
          have key : s' = w.lengths ∧ IET.SameLabels E' E := by
            cases op with
            | zorichInduction i =>
              simp only [Op.callX, Outcome.atomic, Outcome.next] at hcall
              cases hz : E.zorichInduction (O.rebase f) w.lengths with
              | error e => rw [hz] at hcall; cases hcall; exact ⟨rfl, rfl, rfl, rfl⟩
              | ok x => rw [hz] at hcall; cases hcall
            | swap i => cases hcall
            | reduce i =>
              simp only [Op.callX, Outcome.atomic] at hcall
              cases hz : E.reduce (O.rebase f) w.lengths with
              | error e => rw [hz] at hcall; cases hcall; exact ⟨rfl, rfl, rfl, rfl⟩
              | ok x => rw [hz] at hcall; cases hcall
            | induce i limit => exact absurd rfl (hop i limit)
            | safInvariant i =>
              simp only [Op.callX, IET.safInvariantX, IET.safX, Outcome.atomic, Outcome.next] at hcall
              cases hz : E.saf (O.rebase f) w.lengths with
              | error e => rw [hz] at hcall; cases hcall; exact ⟨rfl, rfl, rfl, rfl⟩
              | ok x => rw [hz] at hcall; cases hcall
            | boshernitzanNoPeriodicTrajectory i =>
              simp only [Op.callX, IET.boshernitzanNoPeriodicTrajectoryX, IET.saf0X, IET.safX, Outcome.atomic, Outcome.next] at hcall
              cases hz : E.saf (O.rebase f) w.lengths with
              | error e => rw [hz] at hcall; cases hcall; exact ⟨rfl, rfl, rfl, rfl⟩
              | ok x =>
                obtain ⟨v, E₁⟩ := x
                have hs : IET.SameLabels E₁ E := by
                  unfold IET.saf at hz
                  cases hc' : E.safCache with
                  | some v' => rw [hc'] at hz; cases hz; exact ⟨rfl, rfl, rfl⟩
                  | none =>
                    rw [hc'] at hz
                    simp only [bind, Except.bind] at hz
                    split at hz
                    · cases hz
                    · cases hz; exact ⟨rfl, rfl, rfl⟩
                rw [hz] at hcall
                simp only at hcall
                split at hcall
                · cases hcall
                · split at hcall
                  · cases hcall
                  · simp only [Prod.mk.injEq] at hcall
                    obtain ⟨-, q1, q2⟩ := hcall
                    rw [← q1]
                    exact ⟨q2.symm, hs⟩
          refine ⟨key.1, ?_⟩
          simp only
          rw [List.forall₂_iff_get]
          refine ⟨by simp, fun j h1 h2 => ?_⟩
          simp only [List.get_eq_getElem, List.getElem_set]
          split
          · rename_i hj
            obtain ⟨hi, hE⟩ := List.getElem?_eq_some_iff.1 hE
            simp only [← hj, hE]
            exact key.2
          · exact ⟨rfl, rfl, rfl⟩
        · rw [hcall] at hr; cases hr

/-! ## Number fields -/

/-- **C86.** The lengths can live in any number fields: `Coefficients<renf_elem_class>` returns coordinates or throws. -/
theorem C86_renf {F : Type} [DecidableEq F] {T : Type} [Field T] [LinearOrder T] [IsStrictOrderedRing T] {O : LengthsOps σ T} {c : T →+ (Fin d → ℚ)}
    (H : LawfulLengths O c ε) (K : F → NField T) (elem : σ → Label → RenfElem K) (hv : ∀ s a, H.dom s a → (elem s a).value = H.len s a) :
    H.CoordinatesOrException (fun l s => renfCoefficients K (l.map (elem s))) := by
  constructor
  · rintro e ⟨l, s, he⟩
    rcases C65_renf_throws K (l.map (elem s)) with ⟨vs, h⟩ | h
    · simp only at he; rw [h] at he; cases he
    · simp only at he; rw [h] at he; cases he; trivial
  · intro s l hi hd _
    rcases C65_renf_throws K (l.map (elem s)) with ⟨vs, hvs⟩ | h
    · right
      obtain ⟨b, g, h1, h2, h3⟩ := renfCoefficients_spec K hvs
      obtain ⟨d', w, h4, h5⟩ := coordinates_of (H := H) (s := s) (l := l) h1 (v := fun a => g (elem s a)) (fun a ha => by
        have := h3 _ (List.mem_map_of_mem ha)
        rw [hv s a (hd a ha)] at this
        exact this)
      refine ⟨d', w, ?_, h5⟩
      simp only
      rw [hvs, h2, List.map_map, ← h4]
      rfl
    · exact .inl ⟨_, h⟩

/-! ## Examples and a finding -/

namespace Examples

/-- Coefficients of lengths in `ℤ[√2]` where the second length is the number 1 in the field generated by `√3`: they cannot be computed if that length comes
first and another one is irrational (see `C65_order`). -/
def pickyCoefficients (l : List Label) (s : SLengths Q2) : M (List (List ℚ)) :=
  if l.head? = some 1 ∧ l.any (fun a => (s.lengths.getD a 0).im ≠ 0) then .error .logicError else q2Adaptive l s

theorem mapM_at_error (s : SLengths Q2) : ∀ (l : List Label) {e : Err}, l.mapM s.at' = .error e → e = .outOfRange
  | [], _, h => by cases h
  | x :: l, e, h => by
    rw [List.mapM_cons] at h
    simp only [bind, Except.bind] at h
    split at h
    · rename_i e' hx
      cases h
      unfold SLengths.at' at hx
      split at hx
      · cases hx
      · cases hx; rfl
    · split at h
      · rename_i e' hx
        cases h
        exact mapM_at_error s l hx
      · cases h

theorem picky_coordinates : hQ2.CoordinatesOrException pickyCoefficients := by
  constructor
  · rintro e ⟨l, s, he⟩
    unfold pickyCoefficients at he
    split at he
    · cases he; trivial
    · simp only [q2Adaptive, SLengths.coefficients, bind, Except.bind] at he
      split at he
      · rename_i e' hx
        cases he
        rw [mapM_at_error _ _ hx]
        trivial
      · simp only [q2Coeffs] at he
        split at he <;> cases he
  · intro s l h1 h2 h3
    unfold pickyCoefficients
    split
    · exact .inl ⟨_, rfl⟩
    · exact .inr (q2Adaptive_coordinates s l h1 h2 h3)

/-- Three intervals of lengths √2, 1, 2 whose order is reversed. -/
def pickyIET : IET Q2 := .fresh [0, 1, 2] [2, 1, 0]
/-- Their lengths. -/
def pickyState : SLengths Q2 := ⟨[], [⟨0, 1⟩, 1, 2]⟩

theorem picky_ok : hQ2.Ok pickyIET pickyState := sample_ok _ _ _ _ (by decide)

/-- One user: `induce(1)` throws, the exception is caught. -/
theorem picky_reach : ∃ w, CatchReach hQ2 pickyCoefficients PPL.ideal w ∧
    (Op.induce 0 1).execX PPL.ideal ((SLengths.ops q2Arith).rebase pickyCoefficients) 0 ⟨[pickyIET], pickyState⟩ = (.error .logicError, w) := by
  have h : ((Op.induce 0 1).execX PPL.ideal ((SLengths.ops q2Arith).rebase pickyCoefficients) 0 ⟨[pickyIET], pickyState⟩).1 = .error .logicError := by
    decide +kernel
  rcases hx : (Op.induce 0 1).execX PPL.ideal ((SLengths.ops q2Arith).rebase pickyCoefficients) 0 ⟨[pickyIET], pickyState⟩ with ⟨r, w⟩
  rw [hx] at h
  simp only at h
  subst h
  exact ⟨w, .call 0 (.induce 0 1) (.init (by simp; exact ⟨rfl, picky_ok⟩) (by simp)) hx (by simp), rfl⟩

/-- All further calls return or throw that exception. -/
example (fuel : ℕ) (op : Op) : ∃ w, (w : World (SLengths Q2) Q2) ≠ ⟨[pickyIET], pickyState⟩ ∧
    ((op.execX PPL.ideal ((SLengths.ops q2Arith).rebase pickyCoefficients) fuel w).1 = .ok () ∨
    (∃ e, (op.execX PPL.ideal ((SLengths.ops q2Arith).rebase pickyCoefficients) fuel w).1 = .error e ∧ Throws pickyCoefficients e ∧ e.Exception) ∨
    (op.execX PPL.ideal ((SLengths.ops q2Arith).rebase pickyCoefficients) fuel w).1 = .error .fuel ∧ ∃ i, op = .induce i (-1)) := by
  obtain ⟨w, h1, h2⟩ := picky_reach
  refine ⟨w, ?_, C86_progress hQ2 picky_coordinates q2Coef_injective PPL.ideal_lawful h1 fuel op⟩
  have h3 : (((Op.induce 0 1).execX PPL.ideal ((SLengths.ops q2Arith).rebase pickyCoefficients) 0 ⟨[pickyIET], pickyState⟩).2.pieces.map IET.top) = [[1, 0, 2]] := by
    decide +kernel
  rw [h2] at h3
  rintro rfl
  exact absurd h3 (by decide)

/-- The hypotheses of the other theorems hold as well. -/
example : ∃ w w₀, CatchReach hQ2 pickyCoefficients PPL.ideal w ∧ Reachable hQ2 PPL.ideal w₀ ∧ w.lengths = w₀.lengths ∧
    List.Forall₂ IET.SameLabels w.pieces w₀.pieces := by
  obtain ⟨w, h1, -⟩ := picky_reach
  obtain ⟨w₀, h2, h3, h4, -⟩ := C86_valid hQ2 picky_coordinates q2Coef_injective PPL.ideal_lawful h1
  exact ⟨w, w₀, h1, h2, h3, h4⟩

end Examples

open Examples in
/-- **C86.** `induce` can throw after it has changed the IET: here one round of Zorich induction has been performed. -/
theorem C86_changed : (pickyIET.induceX PPL.ideal ((SLengths.ops q2Arith).rebase pickyCoefficients) 0 1 pickyState).1 = .error .logicError ∧
    (pickyIET.induceX PPL.ideal ((SLengths.ops q2Arith).rebase pickyCoefficients) 0 1 pickyState).2.1.top = [1, 0, 2] ∧
    (pickyIET.induceX PPL.ideal ((SLengths.ops q2Arith).rebase pickyCoefficients) 0 1 pickyState).2.2.lengths = [⟨0, 1⟩, 1, ⟨2, -1⟩] := by
  decide +kernel

open Examples in
/-- The theorem on `induce` for this example. -/
example : ∃ E' s', Iter Round 1 (hQ2.abs pickyIET pickyState) (hQ2.abs E' s') ∧ E'.top = [1, 0, 2] := by
  obtain ⟨h1, h2, h3⟩ := C86_changed
  rcases hx : pickyIET.induceX PPL.ideal ((SLengths.ops q2Arith).rebase pickyCoefficients) 0 1 pickyState with ⟨r, E', s'⟩
  rw [hx] at h1 h2 h3
  simp only at h1 h2 h3
  subst h1
  rcases (C86_induce hQ2 picky_coordinates q2Coef_injective PPL.ideal_lawful (w := ⟨[pickyIET], pickyState⟩)
    (.init (by simp; exact ⟨rfl, picky_ok⟩) (by simp)) (i := 0) rfl hx (by simp)).2 with ⟨h4, -⟩ | ⟨-, h4, -⟩
  · rw [h4] at h2; exact absurd h2 (by decide)
  · exact ⟨E', s', h4, h2⟩

open Examples in
/-- The theorem on other functions: the criterion throws after that round. -/
example : ∃ w w' e, CatchReach hQ2 pickyCoefficients PPL.ideal w ∧
    (Op.boshernitzanNoPeriodicTrajectory 0).execX PPL.ideal ((SLengths.ops q2Arith).rebase pickyCoefficients) 0 w = (.error e, w') ∧
    w'.lengths = w.lengths ∧ List.Forall₂ IET.SameLabels w'.pieces w.pieces := by
  obtain ⟨w, h1, h2⟩ := picky_reach
  have h3 : ((Op.boshernitzanNoPeriodicTrajectory 0).execX PPL.ideal ((SLengths.ops q2Arith).rebase pickyCoefficients) 0
      ((Op.induce 0 1).execX PPL.ideal ((SLengths.ops q2Arith).rebase pickyCoefficients) 0 ⟨[pickyIET], pickyState⟩).2).1 = .error .logicError := by
    decide +kernel
  rw [h2] at h3
  rcases hx : (Op.boshernitzanNoPeriodicTrajectory 0).execX PPL.ideal ((SLengths.ops q2Arith).rebase pickyCoefficients) 0 w with ⟨r, w'⟩
  rw [hx] at h3
  simp only at h3
  subst h3
  exact ⟨w, w', _, h1, hx, (C86_const hQ2 picky_coordinates q2Coef_injective PPL.ideal_lawful h1 (by simp) hx).2⟩

end Verif
