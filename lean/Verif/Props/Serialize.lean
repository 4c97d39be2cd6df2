import Verif.Proofs.Serialize
import Verif.Proofs.Twin
import Verif.Proofs.Reach
import Verif.Props.Equality
import Verif.Examples

/-!
# C25, C56: saving and loading; the induction only depends on labels and lengths
-/

namespace Verif

set_option linter.unusedSectionVars false

/-! ### C56 -/

section

variable {σ σ' T ε ε' : Type} [CommRing T] [LinearOrder T] [IsStrictOrderedRing T] {O : LengthsOps σ T} {O' : LengthsOps σ' T}
  {d : ℕ} {c : T →+ (Fin d → ℚ)}

/-- What a user can see of two states is the same: `top()`, `bottom()` and the lengths of all IETs. -/
def LooksSame (O : LengthsOps σ T) (O' : LengthsOps σ' T) (w : World σ T) (w' : World σ' T) : Prop :=
  List.Forall₂ (fun E F => E.top = F.top ∧ E.bottom = F.bottom ∧ ∀ a ∈ E.top, O.get a w.lengths = O'.get a w'.lengths) w.pieces w'.pieces

theorem LooksSame.twin {H : LawfulLengths O c ε} {H' : LawfulLengths O' c ε'} {L : PPL} (hL : L.Lawful) {w : World σ T} {w' : World σ' T}
    (h : Reachable H L w) (h' : Reachable H' L w') (hs : LooksSame O O' w w') : TwinWorld H H' w w' := by
  have ok := h.ok hL
  have ok' := h'.ok hL
  refine ⟨ok, ok', ?_⟩
  obtain ⟨hs1, hs2⟩ := List.forall₂_iff_get.1 hs
  refine List.forall₂_iff_get.2 ⟨hs1, fun i hi hi' => ?_⟩
  obtain ⟨h1, h2, h3⟩ := hs2 i hi hi'
  have g := ok.good _ (List.get_mem w.pieces ⟨i, hi⟩)
  have g' := ok'.good _ (List.get_mem w'.pieces ⟨i, hi'⟩)
  refine ⟨g.ok, g'.ok, g.cache, g'.cache, h1, h2, fun a ha => ?_⟩
  have := h3 a ha
  rw [H.get_spec _ a g.ok.inv (g.ok.dom a ha), H'.get_spec _ a g'.ok.inv (g'.ok.dom a (h1 ▸ ha))] at this
  exact Except.ok.inj this

theorem TwinWorld.looksSame {H : LawfulLengths O c ε} {H' : LawfulLengths O' c ε'} {w : World σ T} {w' : World σ' T} (h : TwinWorld H H' w w') :
    LooksSame O O' w w' := by
  refine h.twin.imp (fun E F ht => ⟨ht.top, ht.bottom, fun a ha => ?_⟩)
  rw [H.get_spec _ a ht.ok.inv (ht.ok.dom a ha), H'.get_spec _ a ht.ok'.inv (ht.ok'.dom a (ht.top ▸ ha)), ht.len a ha]

theorem ReportsLoop.saf {H : LawfulLengths O c ε} {L : PPL} (hL : L.Lawful) {fuel : ℕ} {limit : ℤ} {E : IET T} {s : σ} (h : H.Good E s)
    (hr : ReportsLoop (E.induce L O fuel limit s)) : ∀ x ∈ safList c (H.abs E s), x = 0 := by
  obtain ⟨⟨st, E', s'⟩, h1, h2⟩ := hr
  rcases induce_spec H hL fuel limit E s h with ⟨he, _⟩ | ⟨st', E'', s'', he, hspec, _⟩
  · rw [he] at h1; cases h1
  · rw [he] at h1
    cases h1
    generalize hst : st = st₀ at hspec h2
    cases hspec with
    | cylinder => cases h2
    | auto _ _ _ _ h5 => exact h5
    | finish _ _ hf _ _ =>
      generalize hst' : st₀ = st₁ at hf h2
      cases hf <;> cases h2

/-- **C56.** What the functions return only depends on the labels and the lengths, not on how the IETs have been obtained, on their caches, on whether
they are swapped, or on the implementation of the lengths.  The only exception is `induce` when the SAF invariant is zero: one of the two calls might report
`WITHOUT_PERIODIC_TRAJECTORY_AUTO_SIMILAR`. -/
theorem C56_results (H : LawfulLengths O c ε) (H' : LawfulLengths O' c ε') {L : PPL} (hL : L.Lawful) {w : World σ T} {w' : World σ' T}
    (h : Reachable H L w) (h' : Reachable H' L w') (hs : LooksSame O O' w w') {i : ℕ} {E F : IET T} (hE : w.pieces[i]? = some E) (hF : w'.pieces[i]? = some F) :
    (∀ fuel limit, (E.induce L O fuel limit w.lengths).map Prod.fst = (F.induce L O' fuel limit w'.lengths).map Prod.fst ∨
      ((ReportsLoop (E.induce L O fuel limit w.lengths) ∨ ReportsLoop (F.induce L O' fuel limit w'.lengths)) ∧
        ∃ v E' F', E.safInvariant O w.lengths = .ok (v, E') ∧ F.safInvariant O' w'.lengths = .ok (v, F') ∧ ∀ x ∈ v, x = 0)) ∧
    (E.zorichInduction O w.lengths).map Prod.fst = (F.zorichInduction O' w'.lengths).map Prod.fst ∧
    (E.reduce O w.lengths).map Prod.fst = (F.reduce O' w'.lengths).map Prod.fst ∧
    (E.safInvariant O w.lengths).map Prod.fst = (F.safInvariant O' w'.lengths).map Prod.fst ∧
    (E.boshernitzanNoPeriodicTrajectory L O w.lengths).map Prod.fst =
      (F.boshernitzanNoPeriodicTrajectory L O' w'.lengths).map Prod.fst ∧
    E.boshernitzanNoSaddleConnection L O w.lengths = F.boshernitzanNoSaddleConnection L O' w'.lengths := by
  have ht := hs.twin hL h h'
  obtain ⟨F', hF', hsim⟩ := ht.get hE
  rw [hF] at hF'
  cases hF'
  have gE := ht.ok.good E (List.mem_of_getElem? hE)
  have gF := ht.ok'.good F (List.mem_of_getElem? hF)
  have key : ∀ {α β γ : Type} {R : α × β → α × γ → Prop} {x : M (α × β)} {y : M (α × γ)}, (∀ a b, R a b → a.1 = b.1) → RelM R x y →
      x.map Prod.fst = y.map Prod.fst := by
    intro α β γ R x y hR hxy
    cases x with
    | error e => cases y with
      | error e' => cases (show e = e' from hxy); rfl
      | ok b => exact hxy.elim
    | ok a => cases y with
      | error e' => exact hxy.elim
      | ok b => simp only [Except.map]; rw [hR a b hxy]
  refine ⟨fun fuel limit => ?_, key (fun _ _ h => h.1) hsim.zorich, key (fun _ _ h => h.2.1) hsim.reduce, key (fun _ _ h => h.1) hsim.safInvariant,
    key (fun _ _ h => h.1) (hsim.bosh L), hsim.noSaddle L⟩
  rcases hsim.induce hL fuel limit gE gF with q | q | q
  · refine .inr ⟨.inl q, safList c (H.abs E w.lengths), _, { F with safCache := some (safList c (H'.unswapped F w'.lengths)) }, safInvariant_spec H gE.ok gE.cache, ?_,
      q.saf hL gE⟩
    rw [hsim.safList]
    exact safInvariant_spec H' gF.ok gF.cache
  · refine .inr ⟨.inr q, safList c (H'.abs F w'.lengths), { E with safCache := some (safList c (H.unswapped E w.lengths)) }, _, ?_, safInvariant_spec H' gF.ok gF.cache, q.saf hL gF⟩
    rw [← hsim.safList]
    exact safInvariant_spec H gE.ok gE.cache
  · exact .inl (key (fun _ _ h => h.1) q)

/-- **C56.** States that look the same still look the same after the same call, unless `induce` reports
`WITHOUT_PERIODIC_TRAJECTORY_AUTO_SIMILAR`; and if one call does not return then the other one fails in the same way. -/
theorem C56_step (H : LawfulLengths O c ε) (H' : LawfulLengths O' c ε') {L : PPL} (hL : L.Lawful) {w : World σ T} {w' : World σ' T}
    (h : Reachable H L w) (h' : Reachable H' L w') (hs : LooksSame O O' w w') (fuel : ℕ) (op : Op) (hl : ¬ op.FindsLoop L O fuel w)
    (hl' : ¬ op.FindsLoop L O' fuel w') :
    (∃ e, op.exec L O fuel w = .error e ∧ op.exec L O' fuel w' = .error e) ∨
      ∃ w₁ w₁', op.exec L O fuel w = .ok w₁ ∧ op.exec L O' fuel w' = .ok w₁' ∧ Reachable H L w₁ ∧ Reachable H' L w₁' ∧ LooksSame O O' w₁ w₁' := by
  have hr := (hs.twin hL h h').exec hL fuel op hl hl'
  cases h1 : op.exec L O fuel w with
  | error e =>
    rw [h1] at hr
    cases h2 : op.exec L O' fuel w' with
    | error e' => rw [h2] at hr; cases (show e = e' from hr); exact .inl ⟨e, rfl, rfl⟩
    | ok b => rw [h2] at hr; exact hr.elim
  | ok w₁ =>
    obtain ⟨w₁', h2, h3⟩ := hr.ok_left h1
    exact .inr ⟨w₁, w₁', rfl, h2, .step fuel op h h1, .step fuel op h' h2, h3.looksSame⟩

/-- The same calls are made in two states, all of them return and none of them reports `WITHOUT_PERIODIC_TRAJECTORY_AUTO_SIMILAR`. -/
inductive SameCalls (L : PPL) (O : LengthsOps σ T) (O' : LengthsOps σ' T) : List Op → World σ T → World σ' T → World σ T → World σ' T → Prop
  | nil {w : World σ T} {w' : World σ' T} : SameCalls L O O' [] w w' w w'
  | cons {w w₁ w₂ : World σ T} {w' w₁' w₂' : World σ' T} {ops : List Op} (fuel : ℕ) (op : Op) : op.exec L O fuel w = .ok w₁ →
      op.exec L O' fuel w' = .ok w₁' → ¬ op.FindsLoop L O fuel w → ¬ op.FindsLoop L O' fuel w' → SameCalls L O O' ops w₁ w₁' w₂ w₂' →
      SameCalls L O O' (op :: ops) w w' w₂ w₂'

/-- **C56.** States that look the same still look the same after the same calls. -/
theorem C56_history (H : LawfulLengths O c ε) (H' : LawfulLengths O' c ε') {L : PPL} (hL : L.Lawful) {w w₁ : World σ T} {w' w₁' : World σ' T}
    (h : Reachable H L w) (h' : Reachable H' L w') (hs : LooksSame O O' w w') {ops : List Op} (hr : SameCalls L O O' ops w w' w₁ w₁') :
    LooksSame O O' w₁ w₁' := by
  induction hr with
  | nil => exact hs
  | cons fuel op h1 h2 h3 h4 _ ih =>
    rcases C56_step H H' hL h h' hs fuel op h3 h4 with ⟨e, e1, _⟩ | ⟨w₁, w₁', e1, e2, e3, e4, e5⟩
    · rw [h1] at e1; cases e1
    · rw [h1] at e1
      rw [h2] at e2
      cases e1
      cases e2
      exact ih e3 e4 e5

end

/-- Computing the SAF invariant changes the cache only. -/
example (L : PPL) (hL : L.Lawful) : ∃ w, Reachable Examples.hInt L w ∧ w ≠ ⟨[Examples.intIET], Examples.intState⟩ ∧
    LooksSame (SLengths.ops intArith) (SLengths.ops intArith) w ⟨[Examples.intIET], Examples.intState⟩ := by
  have h0 : Reachable Examples.hInt L ⟨[Examples.intIET], Examples.intState⟩ := Examples.sample_reachable _ _ Examples.int_ok
  have h1 : Reachable Examples.hInt L ⟨[{ Examples.intIET with safCache := some [] }], Examples.intState⟩ :=
    .step 0 (.safInvariant 0) h0 rfl
  refine ⟨_, h1, ?_, .cons ⟨rfl, rfl, fun a _ => rfl⟩ .nil⟩
  intro e
  injection e with e
  injection e with e
  injection e with _ _ e
  cases e

/-! ### C25 -/

section

variable {T : Type} [CommRing T] [LinearOrder T] [IsStrictOrderedRing T] {A : Arith T} {d : ℕ} {c : T →+ (Fin d → ℚ)}

/-- **C25.** IETs that have been saved to an archive can be loaded again, into a program with any other objects `cells₀`.  The loaded IETs have the same
labels, equal lengths, are not swapped and have empty caches.  They do not share lengths with anything that existed before; two of them share their lengths
exactly if the original ones did. -/
theorem C25_round_trip (hA : A.Lawful c) (cells cells₀ : List (SLengths T)) (os : List (IETObject T)) (ho : ∀ o ∈ os, Saveable hA cells o) :
    ∃ vs os' cells', IETObject.saveAll cells [] os = .ok vs ∧ IETObject.loadAll A cells₀ [] vs = .ok (os', cells') ∧ cells₀ <+: cells' ∧
      os'.length = os.length ∧
      (∀ (i : ℕ) (o o' : IETObject T), os[i]? = some o → os'[i]? = some o' → o'.1 = IET.fresh o.1.top o.1.bottom ∧
        (o.2 = none → o' = IETObject.default) ∧
        ∀ a, o.2 = some a → ∃ a', o'.2 = some a' ∧ cells₀.length ≤ a' ∧ cells'[a']? = cells[a]?) ∧
      (∀ (i j : ℕ) (oi oj oi' oj' : IETObject T), os[i]? = some oi → os[j]? = some oj → os'[i]? = some oi' → os'[j]? = some oj' →
        (oi'.2 = oj'.2 ↔ oi.2 = oj.2)) := by
  have h0 : Link cells cells₀ [] [] cells₀ := ⟨rfl, by simp, by simp, by simp, List.prefix_rfl, by simp⟩
  obtain ⟨vs, os', cells', W, R, h1, h2, h3, -, -, h4⟩ := saveAll_load hA os h0 ho
  obtain ⟨h5, h6⟩ := List.forall₂_iff_get.1 h4
  have key : ∀ (i : ℕ) (o o' : IETObject T), os[i]? = some o → os'[i]? = some o' → Loaded o o' W R := by
    intro i o o' hi hi'
    obtain ⟨l1, e1⟩ := List.getElem?_eq_some_iff.1 hi
    obtain ⟨l2, e2⟩ := List.getElem?_eq_some_iff.1 hi'
    have := h6 i l1 l2
    simp only [List.get_eq_getElem, e1, e2] at this
    exact this
  refine ⟨vs, os', cells', h1, h2, h3.pre, h5.symm, ?_, ?_⟩
  · intro i o o' hi hi'
    have hl := key i o o' hi hi'
    refine ⟨hl.iet, ?_, ?_⟩
    · intro hn
      rcases hl.ptr with ⟨-, q⟩ | ⟨k, a, a', q, -⟩
      · rcases ho o (List.mem_of_getElem? hi) with ⟨e1, e2, -⟩ | ⟨a, s, e1, -⟩
        · rw [← Prod.mk.eta (p := o'), hl.iet, q, e1, e2]; rfl
        · rw [hn] at e1; cases e1
      · rw [hn] at q; cases q
    · intro a ha
      rcases hl.ptr with ⟨q, -⟩ | ⟨k, b, a', q1, q2, q3, q4⟩
      · rw [ha] at q; cases q
      · rw [ha] at q1; cases q1
        exact ⟨a', q2, (h3.new a' (List.mem_of_getElem? q4)).1, h3.same k a a' q3 q4⟩
  · intro i j oi oj oi' oj' hi hj hi' hj'
    rcases (key i oi oi' hi hi').ptr with ⟨p1, p2⟩ | ⟨k, a, a', p1, p2, p3, p4⟩ <;>
      rcases (key j oj oj' hj hj').ptr with ⟨q1, q2⟩ | ⟨k', b, b', q1, q2, q3, q4⟩
    · rw [p1, p2, q1, q2]
    · rw [p1, p2, q1, q2]; simp
    · rw [p1, p2, q1, q2]; simp
    · rw [p1, p2, q1, q2, Option.some.injEq, Option.some.injEq]
      obtain ⟨l1, e1⟩ := List.getElem?_eq_some_iff.1 p3
      obtain ⟨l2, e2⟩ := List.getElem?_eq_some_iff.1 p4
      obtain ⟨l3, e3⟩ := List.getElem?_eq_some_iff.1 q3
      obtain ⟨l4, e4⟩ := List.getElem?_eq_some_iff.1 q4
      constructor
      · intro e
        have : k = k' := (List.Nodup.getElem_inj_iff h3.nodup').1 (by rw [e2, e4, e])
        subst this
        rw [← e1, ← e3]
      · intro e
        have : k = k' := (List.Nodup.getElem_inj_iff h3.nodup).1 (by rw [e1, e3, e])
        subst this
        rw [← e2, ← e4]

/-- **C25.** The IETs of any reachable state can be saved and loaded.  The loaded IETs share their lengths, none of them is swapped, each is equal to the
original one (`operator==`), and the new state looks the same as the original one. -/
theorem C25_equal (hA : A.Lawful c) {L : PPL} (hL : L.Lawful) {w : World (SLengths T) T} (h : Reachable (SLengths.lawful hA) L w)
    (cells₀ : List (SLengths T)) :
    ∃ vs os' cells' w', IETObject.saveAll [w.lengths] [] (w.pieces.map (fun E => (E, some 0))) = .ok vs ∧
      IETObject.loadAll A cells₀ [] vs = .ok (os', cells') ∧ w'.pieces = os'.map Prod.fst ∧
      (∀ o ∈ os', o.1.swapped = false ∧ ∃ a, o.2 = some a ∧ cells'[a]? = some w'.lengths ∧ ∀ o' ∈ os', o'.2 = some a) ∧
      List.Forall₂ (fun E F => E.beq (SLengths.ops A) (SLengths.ops A) w.lengths F w'.lengths = .ok true ∧
        F.beq (SLengths.ops A) (SLengths.ops A) w'.lengths E w.lengths = .ok true) w.pieces w'.pieces ∧
      Reachable (SLengths.lawful hA) L w' ∧ LooksSame (SLengths.ops A) (SLengths.ops A) w w' := by
  obtain ⟨vs, os', cells', h1, h2, -, h3, h4, h5⟩ := C25_round_trip hA [w.lengths] cells₀ (w.pieces.map (fun E => (E, some 0))) (by
    intro o ho
    obtain ⟨E, hE, rfl⟩ := List.mem_map.1 ho
    exact .inr ⟨0, w.lengths, rfl, rfl, ((h.ok hL).good E hE).ok⟩)
  rw [List.length_map] at h3
  have hf : ∀ (i : ℕ) (o' : IETObject T), os'[i]? = some o' → ∃ E, w.pieces[i]? = some E ∧ o'.1 = IET.fresh E.top E.bottom ∧
      ∃ a, o'.2 = some a ∧ cells'[a]? = some w.lengths := by
    intro i o' hi
    have hlt := (List.getElem?_eq_some_iff.1 hi).1
    have hE : w.pieces[i]? = some w.pieces[i] := List.getElem?_eq_getElem (h3 ▸ hlt)
    obtain ⟨q1, -, q3⟩ := h4 i (w.pieces[i], some 0) o' (by rw [List.getElem?_map, hE]; rfl) hi
    obtain ⟨a, e1, -, e2⟩ := q3 0 rfl
    exact ⟨_, hE, q1, a, e1, e2⟩
  have hp : os'.map Prod.fst = w.pieces.map (fun E => IET.fresh E.top E.bottom) := by
    refine List.ext_getElem? (fun i => ?_)
    rw [List.getElem?_map, List.getElem?_map]
    cases hi : os'[i]? with
    | none =>
      have : w.pieces[i]? = none := by rw [List.getElem?_eq_none_iff] at hi ⊢; omega
      rw [this]; rfl
    | some o' =>
      obtain ⟨E, e1, e2, -⟩ := hf i o' hi
      rw [e1]
      simp only [Option.map_some, e2]
  have ok := h.ok hL
  refine ⟨vs, os', cells', ⟨os'.map Prod.fst, w.lengths⟩, h1, h2, rfl, ?_, ?_, ?_, ?_⟩
  · intro o ho
    obtain ⟨i, hi⟩ := List.mem_iff_getElem?.1 ho
    obtain ⟨E, e1, e2, a, e3, e4⟩ := hf i o hi
    refine ⟨by rw [e2]; rfl, a, e3, e4, fun o' ho' => ?_⟩
    obtain ⟨j, hj⟩ := List.mem_iff_getElem?.1 ho'
    obtain ⟨E', e1', -⟩ := hf j o' hj
    rw [← e3]
    exact (h5 j i (E', some 0) (E, some 0) o' o (by rw [List.getElem?_map, e1']; rfl) (by rw [List.getElem?_map, e1]; rfl) hj hi).2 rfl
  · simp only
    rw [hp, List.forall₂_map_right_iff, List.forall₂_same]
    intro E hE
    have g := (ok.good E hE).ok
    have g' : (SLengths.lawful hA).Ok (IET.fresh E.top E.bottom) w.lengths := g.congr rfl rfl
    obtain ⟨b, b1, b2⟩ := C24_eq (SLengths.lawful hA) (SLengths.lawful hA) g g'
    obtain ⟨b', b1', b2'⟩ := C24_eq (SLengths.lawful hA) (SLengths.lawful hA) g' g
    rw [b1, b1', b2.2 ⟨rfl, rfl, fun _ _ => rfl⟩, b2'.2 ⟨rfl, rfl, fun _ _ => rfl⟩]
    exact ⟨rfl, rfl⟩
  · rw [hp]
    refine .init ?_ ?_
    · intro F hF
      obtain ⟨E, hE, rfl⟩ := List.mem_map.1 hF
      exact ⟨rfl, (ok.good E hE).ok.congr rfl rfl⟩
    · rw [List.pairwise_map]
      exact ok.disjoint
  · unfold LooksSame
    rw [hp, List.forall₂_map_right_iff, List.forall₂_same]
    exact fun E _ => ⟨rfl, rfl, fun _ _ => rfl⟩

/-- **C25.** A loaded IET gives the same answers as the original one, before and after any calls that do not report
`WITHOUT_PERIODIC_TRAJECTORY_AUTO_SIMILAR`: `w` and `w'` are the state that has been saved and the state after loading (see `C25_equal`), `w₁` and `w₁'` the
states after the calls. -/
theorem C25_behaviour (hA : A.Lawful c) {L : PPL} (hL : L.Lawful) {w w' w₁ w₁' : World (SLengths T) T} (h : Reachable (SLengths.lawful hA) L w)
    (h' : Reachable (SLengths.lawful hA) L w') (hs : LooksSame (SLengths.ops A) (SLengths.ops A) w w') {ops : List Op}
    (hr : SameCalls L (SLengths.ops A) (SLengths.ops A) ops w w' w₁ w₁') {i : ℕ} {E F : IET T} (hE : w₁.pieces[i]? = some E)
    (hF : w₁'.pieces[i]? = some F) :
    E.top = F.top ∧ E.bottom = F.bottom ∧ (∀ a ∈ E.top, (SLengths.ops A).get a w₁.lengths = (SLengths.ops A).get a w₁'.lengths) ∧
    (E.safInvariant (SLengths.ops A) w₁.lengths).map Prod.fst = (F.safInvariant (SLengths.ops A) w₁'.lengths).map Prod.fst ∧
    (E.reduce (SLengths.ops A) w₁.lengths).map Prod.fst = (F.reduce (SLengths.ops A) w₁'.lengths).map Prod.fst ∧
    (E.zorichInduction (SLengths.ops A) w₁.lengths).map Prod.fst = (F.zorichInduction (SLengths.ops A) w₁'.lengths).map Prod.fst ∧
    ∀ fuel limit, (E.induce L (SLengths.ops A) fuel limit w₁.lengths).map Prod.fst = (F.induce L (SLengths.ops A) fuel limit w₁'.lengths).map Prod.fst ∨
      ReportsLoop (E.induce L (SLengths.ops A) fuel limit w₁.lengths) ∨ ReportsLoop (F.induce L (SLengths.ops A) fuel limit w₁'.lengths) := by
  have key : Reachable (SLengths.lawful hA) L w₁ ∧ Reachable (SLengths.lawful hA) L w₁' := by
    clear hs hE hF
    induction hr with
    | nil => exact ⟨h, h'⟩
    | cons fuel op h1 h2 _ _ _ ih => exact ih (.step fuel op h h1) (.step fuel op h' h2)
  have hs₁ := C56_history (SLengths.lawful hA) (SLengths.lawful hA) hL h h' hs hr
  obtain ⟨r1, r2, r3, r4, -⟩ := C56_results (SLengths.lawful hA) (SLengths.lawful hA) hL key.1 key.2 hs₁ hE hF
  obtain ⟨l1, e1⟩ := List.getElem?_eq_some_iff.1 hE
  obtain ⟨l2, e2⟩ := List.getElem?_eq_some_iff.1 hF
  have q := (List.forall₂_iff_get.1 hs₁).2 i l1 l2
  simp only [List.get_eq_getElem, e1, e2] at q
  exact ⟨q.1, q.2.1, q.2.2, r4, r3, r2, fun fuel limit => (r1 fuel limit).imp id (fun p => p.1)⟩

end

/-- Two IETs with the same lengths, one of them swapped, and a default-constructed IET: the lengths are written once and read once. -/
example : (do
    let vs ← IETObject.saveAll [⟨[], [50, 5, 3, 7]⟩] [] [((IET.fresh [0, 1] [1, 0] : IET ℤ).swap, some 0), IETObject.default, (IET.fresh [2, 3] [3, 2], some 0)]
    IETObject.loadAll intArith [⟨[], [1]⟩] [] vs) =
    .ok ([(IET.fresh [1, 0] [0, 1], some 1), IETObject.default, (IET.fresh [2, 3] [3, 2], some 1)], [⟨[], [1]⟩, ⟨[], [50, 5, 3, 7]⟩]) := rfl

/-- A swapped IET with a cached SAF invariant and what is loaded after it has been saved. -/
example (L : PPL) (hL : L.Lawful) : ∃ w, Reachable Examples.hInt L w ∧ w.pieces = [{ Examples.intIET.swap with safCache := some [] }] ∧
    ∃ w', Reachable Examples.hInt L w' ∧ w'.pieces = [IET.fresh [3, 2, 1, 0] [0, 1, 2, 3]] := by
  have h0 : Reachable Examples.hInt L ⟨[Examples.intIET], Examples.intState⟩ := Examples.sample_reachable _ _ Examples.int_ok
  have h1 : Reachable Examples.hInt L ⟨[{ Examples.intIET with safCache := some [] }], Examples.intState⟩ :=
    .step 0 (.safInvariant 0) h0 rfl
  have h2 : Reachable Examples.hInt L ⟨[{ Examples.intIET.swap with safCache := some [] }], Examples.intState⟩ :=
    .step 0 (.swap 0) h1 rfl
  refine ⟨_, h2, rfl, ?_⟩
  obtain ⟨vs, os', cells', w', q1, q2, q3, q4, q5, q6, q7⟩ := C25_equal intArith_lawful hL h2 []
  refine ⟨w', q6, ?_⟩
  cases q1
  cases q2
  exact q3

end Verif
