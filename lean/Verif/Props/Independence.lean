import Verif.Proofs.Independence
import Verif.Proofs.Connections
import Verif.Reach
import Verif.Proofs.Reach
import Verif.Examples

/-!
# C42: the induction does not depend on how lengths are implemented

In particular, nothing changes when a decomposition wraps the lengths to keep track of connections (`LengthsWithConnections`).
-/

namespace Verif

set_option linter.unusedSectionVars false

variable {σ σ' T ε ε' : Type} [CommRing T] [LinearOrder T] [IsStrictOrderedRing T] {O : LengthsOps σ T} {O' : LengthsOps σ' T}
  {d : ℕ} {c : T →+ (Fin d → ℚ)}

/-- The same user program runs on two implementations of lengths: it creates the same IETs, with lengths that have the same values, and
makes the same calls. -/
inductive Both (H : LawfulLengths O c ε) (H' : LawfulLengths O' c ε') (L : PPL) : World σ T → World σ' T → Prop
  | init {pieces : List (IET T)} {s : σ} {t : σ'} : (∀ E ∈ pieces, E = IET.fresh E.top E.bottom ∧ H.Ok E s) →
      (∀ E ∈ pieces, H'.Ok E t) → (∀ E ∈ pieces, ∀ a ∈ E.top, O.get a s = O'.get a t) →
      pieces.Pairwise (fun E F => ∀ a ∈ E.top, a ∉ F.top) → Both H H' L ⟨pieces, s⟩ ⟨pieces, t⟩
  | step {w w₁ : World σ T} {w' w₁' : World σ' T} (fuel : ℕ) (op : Op) : Both H H' L w w' → op.exec L O fuel w = .ok w₁ →
      op.exec L O' fuel w' = .ok w₁' → Both H H' L w₁ w₁'

theorem Both.sim {H : LawfulLengths O c ε} {H' : LawfulLengths O' c ε'} {L : PPL} (hL : L.Lawful) {w : World σ T} {w' : World σ' T}
    (h : Both H H' L w w') : SimWorld H H' (fun _ _ => True) w w' := by
  induction h with
  | @init pieces s t h1 h2 h3 h4 =>
    refine ⟨(Reachable.init h1 h4).ok hL, (Reachable.init (fun E hE => ⟨(h1 E hE).1, h2 E hE⟩) h4).ok hL, ?_⟩
    simp only
    rw [List.forall₂_same]
    intro E hE
    refine ⟨(h1 E hE).2, h2 E hE, IET.Same.refl E, ?_, ?_, trivial⟩
    · intro a ha
      have e1 := H.get_spec s a (h1 E hE).2.inv ((h1 E hE).2.dom a ha)
      have e2 := H'.get_spec t a (h2 E hE).inv ((h2 E hE).dom a ha)
      have := h3 E hE a ha
      rw [e1, e2] at this
      exact Except.ok.inj this
    · rw [(h1 E hE).1]; exact .inl rfl
  | @step w w₁ w' w₁' fuel op _ e1 e2 ih =>
    exact (Op.exec_sim hL (fun _ _ _ _ _ _ => trivial) fuel op ih).of_ok e1 e2

/-- **C42.** The same calls return on both implementations, otherwise both fail in the same way. -/
theorem C42_progress (H : LawfulLengths O c ε) (H' : LawfulLengths O' c ε') {L : PPL} (hL : L.Lawful) {w : World σ T} {w' : World σ' T}
    (h : Both H H' L w w') (fuel : ℕ) (op : Op) :
    (∃ e, op.exec L O fuel w = .error e ∧ op.exec L O' fuel w' = .error e) ∨
      ∃ w₁ w₁', op.exec L O fuel w = .ok w₁ ∧ op.exec L O' fuel w' = .ok w₁' ∧ Both H H' L w₁ w₁' := by
  have := Op.exec_sim (L := L) hL (fun _ _ _ _ _ _ => trivial) fuel op (h.sim hL)
  cases h1 : op.exec L O fuel w with
  | error e =>
    rw [h1] at this
    cases h2 : op.exec L O' fuel w' with
    | error e' => rw [h2] at this; cases (show e = e' from this); exact .inl ⟨e, rfl, rfl⟩
    | ok b => rw [h2] at this; exact this.elim
  | ok w₁ =>
    obtain ⟨w₁', h2, _⟩ := this.ok_left h1
    exact .inr ⟨w₁, w₁', rfl, h2, .step fuel op h h1 h2⟩

/-- **C42.** After the same calls there are the same IETs with the same lengths. -/
theorem C42_state (H : LawfulLengths O c ε) (H' : LawfulLengths O' c ε') {L : PPL} (hL : L.Lawful) {w : World σ T} {w' : World σ' T}
    (h : Both H H' L w w') :
    List.Forall₂ (fun E F => E.top = F.top ∧ E.bottom = F.bottom ∧ E.swapped = F.swapped ∧
      ∀ a ∈ E.top, ∃ x, O.get a w.lengths = .ok x ∧ O'.get a w'.lengths = .ok x) w.pieces w'.pieces := by
  refine (h.sim hL).sim.imp ?_
  intro E F hs
  refine ⟨hs.same.top, hs.same.bottom, hs.same.swapped, fun a ha => ⟨H.len w.lengths a, H.get_spec _ a hs.ok.inv (hs.ok.dom a ha), ?_⟩⟩
  rw [← hs.get ha]
  exact H.get_spec _ a hs.ok.inv (hs.ok.dom a ha)

/-- **C42.** After the same calls all functions return the same values. -/
theorem C42_results (H : LawfulLengths O c ε) (H' : LawfulLengths O' c ε') {L : PPL} (hL : L.Lawful) {w : World σ T} {w' : World σ' T}
    (h : Both H H' L w w') {i : ℕ} {E F : IET T} (hE : w.pieces[i]? = some E) (hF : w'.pieces[i]? = some F) :
    (∀ fuel limit, (E.induce L O fuel limit w.lengths).map Prod.fst = (F.induce L O' fuel limit w'.lengths).map Prod.fst) ∧
    (E.zorichInduction O w.lengths).map Prod.fst = (F.zorichInduction O' w'.lengths).map Prod.fst ∧
    (E.reduce O w.lengths).map Prod.fst = (F.reduce O' w'.lengths).map Prod.fst ∧
    (E.safInvariant O w.lengths).map Prod.fst = (F.safInvariant O' w'.lengths).map Prod.fst ∧
    (E.boshernitzanNoPeriodicTrajectory L O w.lengths).map Prod.fst =
      (F.boshernitzanNoPeriodicTrajectory L O' w'.lengths).map Prod.fst ∧
    E.boshernitzanNoSaddleConnection L O w.lengths = F.boshernitzanNoSaddleConnection L O' w'.lengths := by
  have hs := h.sim hL
  have hi : i < w.pieces.length := (List.getElem?_eq_some_iff.1 hE).1
  have hi' : i < w'.pieces.length := (List.getElem?_eq_some_iff.1 hF).1
  have hsim : Sim H H' (fun _ _ => True) E w.lengths F w'.lengths := by
    have := (List.forall₂_iff_get.1 hs.sim).2 i hi hi'
    rw [List.get_eq_getElem, List.get_eq_getElem, (List.getElem?_eq_some_iff.1 hE).2, (List.getElem?_eq_some_iff.1 hF).2] at this
    exact this
  have key : ∀ {α β γ : Type} {R : α × β → α × γ → Prop} {x : M (α × β)} {y : M (α × γ)}, (∀ a b, R a b → a.1 = b.1) → RelM R x y →
      x.map Prod.fst = y.map Prod.fst := by
    intro α β γ R x y hR hxy
    cases x with
    | error e => cases y with
      | error e' => cases (show e = e' from hxy); rfl
      | ok b => exact hxy.elim
    | ok a => cases y with
      | error e' => exact hxy.elim
      | ok b => simp only [Except.map]; rw [hR a b hxy]
  refine ⟨fun fuel limit => key (fun _ _ h => h.1) (hsim.induce (fun _ _ _ _ _ _ => trivial) L fuel limit (hs.ok.good E (List.mem_of_getElem? hE))),
    key (fun _ _ h => h.1) (hsim.zorich (fun _ _ _ _ _ _ => trivial)), key (fun _ _ h => h.2.1) hsim.reduce, key (fun _ _ h => h.1) hsim.safInvariant,
    key (fun _ _ h => h.1) (hsim.bosh L), ?_⟩
  have e1 : E.boshernitzanEquations O w.lengths = F.boshernitzanEquations O' w'.lengths := by
    rw [boshernitzanEquations_spec H hsim.ok, boshernitzanEquations_spec H' hsim.ok', ← hsim.same.top]
    simp only [hsim.agree.transl hsim.ok.valid]
  have e2 : E.labelToCoefficients O w.lengths = F.labelToCoefficients O' w'.lengths := by
    rw [labelToCoefficients_spec H hsim.ok, labelToCoefficients_spec H' hsim.ok', ← hsim.same.top]
    refine congrArg _ (List.map_congr_left (fun a ha => ?_))
    rw [hsim.len a ha]
  have e3 : ∀ t b m, E.translation t b m = F.translation t b m := by
    intro t b m
    simp only [IET.translation, hsim.same.top, hsim.same.bottom]
  simp only [IET.boshernitzanNoSaddleConnection, IET.boshernitzanNoSaddleConnection₂, IET.boshernitzanSaddleConnectionValues, IET.size, e1, e2, e3,
    hsim.same.top, hsim.same.bottom]
  rfl

/-- **C42.** An IET whose lengths are wrapped to keep track of connections behaves like the original one. -/
theorem C42_wrapper (H : LawfulLengths O c ε) (L : PPL) {top bottom : List Label} {s : σ} (h : H.Ok (IET.fresh top bottom) s) (keys : ConnMap)
    (hk : ∀ a ∈ top, a ∈ keys.keys) (others : List Ctx) :
    Both H (LWC.lawful H) L ⟨[IET.fresh top bottom], s⟩ ⟨[IET.fresh top bottom], ⟨s, [], keys, others⟩⟩ := by
  refine .init ?_ ?_ ?_ (List.pairwise_singleton _ _)
  · intro E hE
    rw [List.mem_singleton] at hE
    subst hE
    exact ⟨rfl, h⟩
  · intro E hE
    rw [List.mem_singleton] at hE
    subst hE
    exact ⟨⟨h.inv, h.stack, h.nonneg⟩, rfl, fun a ha => ⟨h.dom a ha, hk a ha⟩, h.valid, fun a ha => h.nonneg a ha.1⟩
  · intro E hE a ha
    rfl

/-- The IET with lengths 50, 5, 3, 7, once with the lengths themselves and once with the wrapped ones: after `zorichInduction()` both have the
same lengths, among them 5 for the label 0. -/
example (L : PPL) (hL : L.Lawful) : ∃ w w', Both Examples.hInt (LWC.lawful Examples.hInt) L w w' ∧
    (Op.zorichInduction 0).exec L (SLengths.ops intArith) 0 ⟨[Examples.intIET], Examples.intState⟩ = .ok w ∧
    (SLengths.ops intArith).get 0 w.lengths = .ok 5 ∧ (LWC.ops (SLengths.ops intArith)).get 0 w'.lengths = .ok 5 := by
  obtain ⟨e, h1, _⟩ | ⟨w₁, w₁', h1, h2, h3⟩ := C42_progress _ _ hL (C42_wrapper Examples.hInt L (top := [0, 1, 2, 3]) (bottom := [3, 2, 1, 0])
    Examples.int_ok ⟨[0, 1, 2, 3], fun _ => {}⟩ (fun _ h => h) []) 0 (.zorichInduction 0)
  · cases h1
  · refine ⟨w₁, w₁', h3, h1, ?_, ?_⟩
    · cases h1; rfl
    · cases h2; rfl

end Verif
