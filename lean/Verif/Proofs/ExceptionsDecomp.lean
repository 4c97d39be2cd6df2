import Verif.SpecExceptionsDecomp
import Verif.Proofs.RebaseDecomp
import Verif.Props.Exceptions

/-!
# Exceptions thrown by steps of decompositions
-/

namespace Verif

set_option linter.unusedSectionVars false

open Outcome

variable {σ T ε : Type} [CommRing T] [LinearOrder T] [IsStrictOrderedRing T] {O : LengthsOps σ T} {d : ℕ} {c : T →+ (Fin d → ℚ)}
  {f : List Label → σ → M (List (List ℚ))}

/-! ### The functions are the ones of the model -/

theorem forget_cost (E : IET T) (s : LWC σ) : forget (Decomp.boshernitzanCostX O E s) = Decomp.boshernitzanCost O E s := by
  unfold Decomp.boshernitzanCostX Decomp.boshernitzanCost
  rw [forget_next, forget_safInvariant]
  rfl

theorem forget_chunks (L : PPL) (cost : Option ℤ) : ∀ (n : ℕ) (limit : ℤ) (E : IET T) (s : LWC σ),
    forget (Decomp.chunksX L O cost n limit E s) = Decomp.chunks L O cost n limit E s
  | 0, _, _, _ => rfl
  | n + 1, limit, E, s => by
    unfold Decomp.chunksX Decomp.chunks
    simp only
    rw [forget_next, forget_induce]
    congr 1
    funext ⟨step, E, s⟩
    simp only
    split
    · exact forget_chunks L cost n _ E s
    · rfl

theorem forget_bounded (L : PPL) (limit : ℤ) (i : ℕ) (D : Decomp σ T) :
    forget (D.decompositionStepBoundedX L O limit i) = D.decompositionStepBounded L O limit i := by
  unfold Decomp.decompositionStepBoundedX Decomp.decompositionStepBounded
  cases hx : D.comp i with
  | error e => rfl
  | ok x =>
    simp only [bind, Except.bind, assertM]
    by_cases hk : x.cylinder = some true ∧ x.keane = some true
    · rw [if_pos hk, if_neg (by simpa using hk)]; rfl
    · rw [if_neg hk, if_pos (decide_eq_true hk), ← forget_cost]
      rcases Decomp.boshernitzanCostX O x.iet { D.lengths with others := D.others i } with ⟨e | cost, E⟩
      · rfl
      · simp only [forget_ok]
        rw [← forget_chunks]
        rcases Decomp.chunksX L O cost (limit.toNat + 1) limit E { D.lengths with others := D.others i } with ⟨e | step, E', s'⟩
        · rfl
        · exact forget_atomic _ _

theorem forget_unlimited (L : PPL) (cost : Option ℤ) (i : ℕ) : ∀ (n : ℕ) (limit : ℤ) (D : Decomp σ T),
    forget (Decomp.unlimitedX L O cost i n limit D) = Decomp.unlimited L O cost i n limit D
  | 0, _, _ => rfl
  | n + 1, limit, D => by
    unfold Decomp.unlimitedX Decomp.unlimited
    rw [forget_next, forget_bounded]
    congr 1
    funext ⟨step, D⟩
    simp only
    split
    · rfl
    · cases cost with
      | some v => exact forget_unlimited L _ i n v D
      | none =>
        simp only
        split
        · exact forget_unlimited L _ i n _ D
        · rfl

theorem forget_decompositionStep (L : PPL) (fuel : ℕ) (limit : ℤ) (i : ℕ) (D : Decomp σ T) :
    forget (D.decompositionStepX L O fuel limit i) = D.decompositionStep L O fuel limit i := by
  unfold Decomp.decompositionStepX Decomp.decompositionStep
  split
  · cases hx : D.comp i with
    | error e => rfl
    | ok x =>
      simp only [bind, Except.bind, assertM]
      by_cases hk : x.cylinder = some true ∧ x.keane = some true
      · rw [if_pos hk, if_neg (by simpa using hk)]; rfl
      · rw [if_neg hk, if_pos (decide_eq_true hk), ← forget_cost]
        rcases Decomp.boshernitzanCostX O x.iet D.lengths with ⟨e | cost, E⟩
        · rfl
        · exact forget_unlimited L cost i fuel 0 _
  · exact forget_bounded L limit i D

theorem forget_decomposeComponent (L : PPL) (target : Comp T → Bool) (limit : ℤ) : ∀ (n i : ℕ) (D : Decomp σ T),
    forget (D.decomposeComponentX L O target limit n i) = D.decomposeComponent L O target limit n i
  | 0, _, _ => rfl
  | n + 1, i, D => by
    unfold Decomp.decomposeComponentX Decomp.decomposeComponent
    cases hx : D.comp i with
    | error e => rfl
    | ok x =>
      simp only [bind, Except.bind]
      split
      · rfl
      · rw [forget_next, forget_decompositionStep]
        simp only [bind]
        congr 1
        funext ⟨step, D⟩
        simp only
        split
        · rfl
        · cases step.additional with
          | none => exact forget_decomposeComponent L target limit n i D
          | some j =>
            simp only
            rw [forget_next, forget_decomposeComponent L target limit n j D]
            simp only [bind]
            congr 1
            funext ⟨x, D⟩
            simp only
            rw [forget_next, forget_decomposeComponent L target limit n i D]
            rfl

theorem forget_decompose (L : PPL) (target : Comp T → Bool) (limit : ℤ) (fuel : ℕ) (D : Decomp σ T) :
    forget (D.decomposeX L O target limit fuel) = D.decompose L O target limit fuel := by
  have : ∀ (is : List ℕ) (D : Decomp σ T), forget (D.decomposeAllX L O target limit fuel is) = D.decomposeAll L O target limit fuel is := by
    intro is
    induction is with
    | nil => intro D; rfl
    | cons i is ih =>
      intro D
      unfold Decomp.decomposeAllX Decomp.decomposeAll
      rw [forget_next, forget_decomposeComponent]
      congr 1
      funext ⟨x, D⟩
      simp only
      split
      · exact ih D
      · rfl
  exact this _ _

/-! ### The induction of a component that is interrupted -/

theorem Throws.lift {e : Err} (h : Throws (LWC.lift f) e) : Throws f e := by
  obtain ⟨l, s, h⟩ := h
  exact ⟨l, s.inner, h⟩

theorem Extends.lift {f' : List Label → σ → M (List (List ℚ))} (h : Extends f f') : Extends (LWC.lift f) (LWC.lift f') := by
  intro l s
  rcases h l s.inner with h | ⟨e, ⟨l', s', h1⟩, h2⟩
  · exact .inl h
  · exact .inr ⟨e, ⟨l', ⟨s', s.stack, s.conns, s.others⟩, h1⟩, h2⟩

theorem StepSpec.plain_moves {H : LawfulLengths O c ε} {E E' : IET T} {s s' : σ} {step : InductionStep T} (h : StepSpec H E s step E' s')
    (hs : E'.swapped = E.swapped) (hr : step.result = .limitReached ∨ step.result = .withoutPeriodicTrajectoryBoshernitzan) : Moves H (E, s) (E', s') := by
  cases h with
  | cylinder => simp at hr
  | auto => simp at hr
  | finish h1 h2 =>
    cases h2 with
    | separating => simp at hr
    | nonSeparating => simp at hr
    | boshernitzan h3 h4 _ _ _ _ => exact h1.tail (.aux h3 h4 (hs.trans h1.swapped.symm))
    | limit h3 h4 _ _ _ => exact h1.tail (.aux h3 h4 (hs.trans h1.swapped.symm))

section

variable {H : LawfulLengths O c ε}

/-- What happens in the loop of component.cc:186-203, and at the same time for an IET for which nothing is thrown. -/
theorem Alike.chunksX (hf : H.CoordinatesOrException f) (hc : ∀ x, c x = 0 → x = 0) {L : PPL} (hL : L.Lawful) (cost : Option ℤ) (hcost : ∀ x, cost = some x → 0 < x) :
    ∀ (n : ℕ) (limit : ℤ) {E F : IET T} {s : LWC σ}, limit ≠ -1 → limit.toNat < n → Alike (LWC.lawful H) (Relation.TransGen RauzyStep) E F s →
    (∃ step E' s' F', Decomp.chunksX L (O.rebase f) cost n limit E s = (.ok step, E', s') ∧ Decomp.chunks L O cost n limit F s = .ok (step, F', s') ∧
      (∀ R ∈ step.additional, Alike (LWC.lawful H) (Relation.TransGen RauzyStep) R R s') ∧ Alike (LWC.lawful H) (Relation.TransGen RauzyStep) E' F' s' ∧
      (step.result = .limitReached → Moves (LWC.lawful H) (F, s) (F', s'))) ∨
    ∃ e E' s' F', Throws f e ∧ Decomp.chunksX L (O.rebase f) cost n limit E s = (.error e, E', s') ∧
      Alike (LWC.lawful H) (Relation.TransGen RauzyStep) E' F' s' ∧ Moves (LWC.lawful H) (F, s) (F', s') := by
  intro n
  induction n with
  | zero => intro limit E F s _ h; omega
  | succ n ih =>
    intro limit E F s hl hn h
    obtain ⟨steps, hsteps, hne, hle⟩ : ∃ steps : ℤ, Decomp.chunkSize cost limit = steps ∧ steps ≠ -1 ∧ (limit - steps = 0 ∨ (0 < limit - steps ∧ 0 < steps)) := by
      cases cost with
      | none => exact ⟨limit, rfl, hl, .inl (by omega)⟩
      | some x =>
        have hx := hcost x rfl
        by_cases h : limit < 2 * x
        · exact ⟨limit, if_pos h, hl, .inl (by omega)⟩
        · exact ⟨x, if_neg h, by omega, .inr (by omega)⟩
    have hcases := induceX_cases (O := LWC.ops O) (Extends.lift (completion_extends (O := O) (f := f))) L 0 steps E s
    have hf' := (hf.completion hc).lift
    have hi := h.induce hf' hc hL 0 steps
    rcases induce_spec (LWC.lawful H) hL 0 steps F s h.good with ⟨_, hx⟩ | ⟨step, F', s', k1, k2, k3, k4, k5, k6⟩
    · exact absurd hx hne
    obtain ⟨⟨step', E', s''⟩, k7, k8, k9, k10, k11⟩ := hi.symm.ok_left k1
    simp only at k8 k9 k10 k11
    subst k8 k9
    rw [← forget_induce, forget_eq_ok] at k7
    rw [k7] at hcases
    unfold Decomp.chunksX Decomp.chunks
    simp only [hsteps]
    rw [LWC.ops_rebase]
    rcases hcases with g | ⟨e, g1, g2⟩ | ⟨e, g1, g2, -, g3⟩
    · rw [g, k1]
      simp only [next, bind, Except.bind, pure, Except.pure]
      by_cases hr : step'.result = .limitReached ∧ limit - steps ≠ 0
      · rw [if_pos hr, if_pos hr]
        have hm := k2.stepSpec.limit_moves k6 hr.1
        rcases ih (limit - steps) (by omega) (by omega) k11 with ⟨st, E₁, s₁, F₁, a1, a2, a3, a4, a5⟩ | ⟨e, E₁, s₁, F₁, a1, a2, a3, a4⟩
        · exact .inl ⟨st, E₁, s₁, F₁, a1, a2, a3, a4, fun hr => hm.trans (a5 hr)⟩
        · exact .inr ⟨e, E₁, s₁, F₁, a1, a2, a3, hm.trans a4⟩
      · rw [if_neg hr, if_neg hr]
        exact .inl ⟨step', E', s'', F', rfl, rfl, k10, k11, fun hr => k2.stepSpec.limit_moves k6 hr⟩
    · rw [g2]
      exact .inr ⟨e, E, s, F, g1.lift, rfl, h, .refl⟩
    · rw [g2]
      refine .inr ⟨e, E', s'', F', g1.lift, rfl, k11, k2.stepSpec.plain_moves k6 ?_⟩
      rcases g3 step' rfl with h | h
      · left; rw [h]
      · right; rw [h]

theorem Alike.costX (hf : H.CoordinatesOrException f) (hc : ∀ x, c x = 0 → x = 0) {E F : IET T} {s : LWC σ}
    (h : Alike (LWC.lawful H) (Relation.TransGen RauzyStep) E F s) :
    (∃ cost E' F', Decomp.boshernitzanCostX (O.rebase f) E s = (.ok cost, E') ∧ Decomp.boshernitzanCost O F s = .ok (cost, F') ∧
      F' = { F with safCache := some (safList c ((LWC.lawful H).unswapped F s)) } ∧
      (∀ x, cost = some x → 0 < x) ∧ Alike (LWC.lawful H) (Relation.TransGen RauzyStep) E' F' s) ∨
    ∃ e, Throws f e ∧ Decomp.boshernitzanCostX (O.rebase f) E s = (.error e, E) := by
  have hcases := safInvariantX_cases (O := LWC.ops O) (Extends.lift (completion_extends (O := O) (f := f))) E s
  have e1 := boshernitzanCost_spec H h.good
  have e1' := e1
  obtain ⟨⟨cost, E'⟩, e2, e3, e4⟩ := (h.cost (hf.completion hc) hc).symm.ok_left e1
  dsimp only at e3 e4
  rw [← forget_cost, forget_eq_ok] at e2
  rcases hcases with g | ⟨e, g1, g2⟩
  · refine .inl ⟨cost, E', _, ?_, ?_, rfl, ?_, e4⟩
    · rw [← e2]
      unfold Decomp.boshernitzanCostX
      rw [LWC.ops_rebase, LWC.ops_rebase, g]
    · rw [e1, e3]
    · intro x hx
      rw [e3] at hx
      split at hx
      · cases hx
      · cases hx; norm_num
  · refine .inr ⟨e, g1.lift, ?_⟩
    unfold Decomp.boshernitzanCostX
    rw [LWC.ops_rebase, g2]
    rfl

/-! ### Steps that are interrupted -/

/-- Some steps of induction have been performed on a component and nothing else has been done. -/
def Decomp.Moved (H : LawfulLengths O c ε) (i : ℕ) (D D₁ : Decomp σ T) : Prop :=
  ∃ y F s', D.comps[i]? = some y ∧ Moves (LWC.lawful H) (y.iet, { D.lengths with others := D.others i }) (F, s') ∧ (LWC.lawful H).Good F s' ∧
    D₁ = ⟨D.comps.set i { y with iet := F }, s'⟩

variable {D D' D₁ D₂ : Decomp σ T} {i : ℕ}

theorem eraseIdx_set_self {α : Type} : ∀ (l : List α) (i : ℕ) (x : α), (l.set i x).eraseIdx i = l.eraseIdx i
  | [], _, _ => rfl
  | _ :: _, 0, _ => rfl
  | a :: l, i + 1, x => congrArg (a :: ·) (eraseIdx_set_self l i x)

theorem Decomp.Moved.trans (h : Decomp.Moved H i D D₁) (h' : Decomp.Moved H i D₁ D₂) : Decomp.Moved H i D D₂ := by
  obtain ⟨y, F, s', h1, h2, h3, rfl⟩ := h
  obtain ⟨y', F', s'', g1, g2, g3, rfl⟩ := h'
  simp only at g1 g2
  rw [List.getElem?_set_self (List.getElem?_eq_some_iff.mp h1).1] at g1
  cases g1
  refine ⟨y, F', s'', h1, ?_, g3, by rw [List.set_set]⟩
  refine h2.trans ?_
  have e : ({ s' with others := Decomp.others ⟨D.comps.set i { y with iet := F }, s'⟩ i } : LWC σ) = s' := by
    have := h2.left.1
    simp only at this
    unfold Decomp.others at this ⊢
    simp only [eraseIdx_set_self]
    rw [← this]
  rw [e] at g2
  exact g2

variable {P : Type} [CommRing P] [LinearOrder P] [IsStrictOrderedRing P] {ι : T →+ P} {A₀ : AIET T} {R : List Conn} {au : Bool → Prop}

theorem Decomp.Moved.inv (hι : StrictMono ι) (h : Decomp.Moved H i D D₁) (hinv : D.Inv H ι A₀ R au) : D₁.Inv H ι A₀ R au := by
  obtain ⟨x, F, s', hi, hm, hgF, rfl⟩ := h
  have hx := List.mem_of_getElem? hi
  have hg : (LWC.lawful H).Good x.iet { D.lengths with others := D.others i } := LWC.good_congr (hinv.good x hx) rfl rfl rfl
  have := hinv.build (x' := { x with iet := F }) (more := []) (R' := R) hi hm.dom (fun a ha => Moves.frame hm hg.ok ha) (fun _ => id) hgF
    (hm.swapped.trans (hinv.swapped x hx))
    ((hinv.flags x hx).mono (fun _ => id) rfl rfl rfl (Descend.length_one hm.steps) (fun X hX => hX.steps hm.steps))
    (by simp) (by
      intro oc hoc htr
      obtain ⟨hq, hq'⟩ : ∃ q, oc[i]? = some q ∧ q.2 = x := by
        rw [← hoc, List.getElem?_map] at hi
        cases hq : oc[i]? with
        | none => rw [hq] at hi; cases hi
        | some q => rw [hq] at hi; simp only [Option.map_some, Option.some.injEq] at hi; exact ⟨q, rfl, hi⟩
      obtain ⟨o', ho⟩ := Track.moves hι (s := { D.lengths with others := D.others i }) htr hq'.1 (E := x.iet) (E₁ := F) (by rw [hq'.2]) (by rw [hq'.2]) hm hg.ok
        (hinv.swapped x hx) (by rw [hoc]; rfl)
      exact ⟨o', [], rfl, ho⟩)
  simpa using this

theorem Decomp.setComp_self {x : Comp T} (hx : D.comp i = .ok x) : D.setComp i { x with iet := x.iet } = D := by
  unfold Decomp.setComp
  unfold Decomp.comp at hx
  cases hi : D.comps[i]? with
  | none => rw [hi] at hx; cases hx
  | some y =>
    rw [hi] at hx
    cases hx
    obtain ⟨h1, h2⟩ := List.getElem?_eq_some_iff.mp hi
    have : D.comps.set i x = D.comps := by rw [← h2]; exact List.set_getElem_self h1
    rw [show ({ x with iet := x.iet } : Comp T) = x from rfl, this]

/-- A step with a limit, and at the same time for a decomposition for which nothing is thrown. -/
theorem Decomp.Like.boundedX (hf : H.CoordinatesOrException f) (hc : ∀ x, c x = 0 → x = 0) (hι : StrictMono ι) {L : PPL} (hL : L.Lawful) (h : Decomp.Like H D D')
    (hinv : D'.Inv H ι A₀ R au) (hi : i < D'.comps.length) {limit : ℤ} (hlimit : limit ≠ -1) :
    (∃ st D₁ D₁', D.decompositionStepBoundedX L (O.rebase f) limit i = (.ok st, D₁) ∧ D'.decompositionStepBounded L O limit i = .ok (st, D₁') ∧
      Decomp.Like H D₁ D₁' ∧ (st.result = .limitReached → Decomp.Moved H i D' D₁')) ∨
    ∃ e D₁ D₁', Throws f e ∧ D.decompositionStepBoundedX L (O.rebase f) limit i = (.error e, D₁) ∧ Decomp.Like H D₁ D₁' ∧
      (D₁ = D ∧ D₁' = D' ∨ Decomp.Moved H i D' D₁') := by
  have hi := List.getElem?_eq_getElem hi
  generalize D'.comps[i] = y at hi
  obtain ⟨x, hx, hxy⟩ := (h.comp i).symm.ok_left (Decomp.comp_ok hi)
  have hy := List.mem_of_getElem? hi
  have hk : ¬ (x.cylinder = some true ∧ x.keane = some true) := fun h' => (hinv.flags y hy).keane (hxy.keane ▸ h'.2)
  have hk' : ¬ (y.cylinder = some true ∧ y.keane = some true) := fun h' => (hinv.flags y hy).keane h'.2
  have hs : Verif.Alike (LWC.lawful H) (Relation.TransGen RauzyStep) x.iet y.iet { D'.lengths with others := D'.others i } := hxy.iet.change rfl rfl rfl
  unfold Decomp.decompositionStepBoundedX
  rw [hx]
  simp only [if_neg hk]
  rw [h.lengths, h.others]
  rcases hs.costX hf hc with ⟨cost, E, F, c1, c2, c3, c4, c5⟩ | ⟨e, c1, c2⟩
  swap
  · right
    rw [c2]
    refine ⟨e, _, _, c1, rfl, ?_, .inl ⟨Decomp.setComp_self hx, rfl⟩⟩
    rw [Decomp.setComp_self hx]
    exact h
  rw [c1]
  simp only
  have hbound : D'.decompositionStepBounded L O limit i =
      (Decomp.chunks L O cost (limit.toNat + 1) limit F { D'.lengths with others := D'.others i } >>= fun p =>
        Decomp.conclude { D'.setComp i { y with iet := p.2.1 } with lengths := p.2.2 } i p.1) := by
    unfold Decomp.decompositionStepBounded
    simp only [Decomp.comp_ok hi, assertM, bind, Except.bind]
    rw [if_pos (decide_eq_true hk')]
    simp only
    rw [c2]
  have haux : Moves (LWC.lawful H) (y.iet, { D'.lengths with others := D'.others i }) (F, { D'.lengths with others := D'.others i }) := by
    rw [c3]
    exact Relation.ReflTransGen.single (.aux rfl rfl rfl)
  have hlike : ∀ {E' F' : IET T} {s' : LWC σ}, Verif.Alike (LWC.lawful H) (Relation.TransGen RauzyStep) E' F' s' →
      (LWC.lawful H).dom s' = (LWC.lawful H).dom D'.lengths → (∀ a, a ∉ y.iet.top → H.len s'.inner a = H.len D'.lengths.inner a) →
      Decomp.Looks (fun E F => Verif.Alike (LWC.lawful H) (Relation.TransGen RauzyStep) E F s')
        { D.setComp i { x with iet := E' } with lengths := s' } { D'.setComp i { y with iet := F' } with lengths := s' } := by
    intro E' F' s' k11 k4 k5
    refine ⟨rfl, ?_⟩
    simp only [Decomp.setComp]
    refine forall₂_set h.comps ?_ ⟨k11.top, k11.bottom, k11.swapped, hxy.cylinder, hxy.withoutPeriodicTrajectory, hxy.keane, k11⟩
    intro j a b hj ha hb hab
    have hfr : ∀ l ∈ b.iet.top, H.len s'.inner l = H.len D'.lengths.inner l := by
      intro l hl
      refine k5 l ?_
      exact pairwise_getElem_ne (fun _ _ h a ha hb => h a hb ha) hinv.disjoint hb hi hj l hl
    exact { hab with iet := hab.iet.frame ((hinv.good b (List.mem_of_getElem? hb)).frame k11.ok k4 hfr) k4 hfr }
  rcases c5.chunksX hf hc hL cost c4 (limit.toNat + 1) limit hlimit (Nat.lt_succ_self _) with ⟨step, E', s', F', k1, k2, k3, k4, k5⟩ | ⟨e, E', s', F', k1, k2, k3, k4⟩
  · left
    obtain ⟨step', F'', s'', q1, -, q3, q4, q5, -⟩ := chunks_spec H hL cost c4 (limit.toNat + 1) limit F { D'.lengths with others := D'.others i } hlimit (Nat.lt_succ_self _) c5.good
    rw [k2] at q1
    cases q1
    have hl := hlike k4 q4 (fun a ha => q5 a (by rw [c3]; exact ha))
    obtain ⟨st, D₁', g1, -⟩ := decompositionStepBounded_spec hι hL hinv hi hlimit
    have g1' := g1
    rw [hbound, k2] at g1
    change Decomp.conclude _ i step = _ at g1
    obtain ⟨⟨st', D₁⟩, r1, r2, r3⟩ := (hl.conclude i step (fun A hA => k3 A hA)).symm.ok_left g1
    simp only at r2 r3
    subst r2
    refine ⟨st', D₁, D₁', ?_, g1', ?_, ?_⟩
    · rw [k1]
      simp only
      rw [r1]
      rfl
    · obtain ⟨l1, l2, l3⟩ := Decomp.conclude_lengths g1
      exact r3.mono (fun a _ b _ hab => Verif.Alike.change hab l1 l2 l3)
    · intro hr
      have hres : step.result = .limitReached ∧ D₁' = { D'.setComp i { y with iet := F' } with lengths := s' } := by
        simp only [Decomp.conclude, bindM_ok] at g1
        obtain ⟨z, hz, g1⟩ := g1
        obtain ⟨r, conn, add⟩ := step
        cases r <;> simp only at g1
        case limitReached => cases g1; exact ⟨rfl, rfl⟩
        case cylinder => cases g1; cases hr
        case withoutPeriodicTrajectoryBoshernitzan => cases g1; cases hr
        case withoutPeriodicTrajectoryAutoSimilar => cases g1; cases hr
        case separatingConnection =>
          exfalso
          cases conn with
          | none => cases g1
          | some p => cases add with
            | none => cases g1
            | some A =>
              simp only [Decomp.separating, bindM_ok] at g1
              obtain ⟨_, _, _, _, _, _, _, _, _, _, _, _, _, _, g1⟩ := g1
              cases g1
              cases hr
        case nonSeparatingConnection =>
          exfalso
          cases conn with
          | none => cases g1
          | some p =>
            simp only [Decomp.nonSeparating, bindM_ok] at g1
            obtain ⟨_, _, _, _, _, _, _, _, _, _, _, _, _, _, _, _, _, _, _, _, _, _, _, _, _, _, _, _, _, _, g1⟩ := g1
            cases g1
            cases hr
      exact ⟨y, F', s', hi, haux.trans (k5 hres.1), q3, hres.2⟩
  · right
    have hm := haux.trans k4
    have hg : (LWC.lawful H).Good y.iet { D'.lengths with others := D'.others i } := LWC.good_congr (hinv.good y hy) rfl rfl rfl
    refine ⟨e, _, { D'.setComp i { y with iet := F' } with lengths := s' }, k1, by rw [k2], ?_, .inr ⟨y, F', s', hi, hm, k3.good, rfl⟩⟩
    exact hlike k3 (Moves.dom hm) (fun a ha => Moves.frame hm hg.ok ha)

/-- Some steps of induction have been performed on a component, and the decomposition still describes the same IET. -/
def Decomp.Kept (H : LawfulLengths O c ε) (i : ℕ) (D D₁ : Decomp σ T) : Prop :=
  ∃ y F, D.comps[i]? = some y ∧ D₁.comps = D.comps.set i { y with iet := F } ∧ Steps (H.abs y.iet D.lengths.inner) (H.abs F D₁.lengths.inner) ∧
    (∀ a, a ∉ y.iet.top → H.len D₁.lengths.inner a = H.len D.lengths.inner a) ∧
    ∀ {P : Type} [CommRing P] [LinearOrder P] [IsStrictOrderedRing P] {ι : T →+ P}, StrictMono ι → ∀ A₀ R au, D.Inv H ι A₀ R au → D₁.Inv H ι A₀ R au

theorem Decomp.Kept.refl (hi : i < D.comps.length) : Decomp.Kept H i D D :=
  ⟨D.comps[i], D.comps[i].iet, List.getElem?_eq_getElem hi, (List.set_getElem_self hi).symm, .refl, fun _ _ => rfl, fun _ _ _ _ h => h⟩

theorem Decomp.Kept.trans (h : Decomp.Kept H i D D₁) (h' : Decomp.Kept H i D₁ D₂) : Decomp.Kept H i D D₂ := by
  obtain ⟨y, F, h1, h2, h3, h4, h5⟩ := h
  obtain ⟨y', F', g1, g2, g3, g4, g5⟩ := h'
  rw [h2, List.getElem?_set_self (List.getElem?_eq_some_iff.mp h1).1] at g1
  cases g1
  refine ⟨y, F', h1, by rw [g2, h2, List.set_set], h3.trans g3, fun a ha => ?_, fun hι A₀ R au h => g5 hι A₀ R au (h5 hι A₀ R au h)⟩
  rw [g4 a (fun h => ha ((Steps.top_perm h3).mem_iff.mp h)), h4 a ha]

theorem Decomp.Moved.kept (hinv : D.Inv H ι A₀ R au) (h : Decomp.Moved H i D D₁) : Decomp.Kept H i D D₁ := by
  have h' := h
  obtain ⟨x, F, s', hi, hm, hgF, rfl⟩ := h
  have hg : (LWC.lawful H).Good x.iet { D.lengths with others := D.others i } := LWC.good_congr (hinv.good x (List.mem_of_getElem? hi)) rfl rfl rfl
  exact ⟨x, F, hi, rfl, hm.steps, fun a ha => Moves.frame hm hg.ok ha, fun hι _ _ _ h => h'.inv hι h⟩

theorem Decomp.kept_setCache {y : Comp T} (hi : D.comps[i]? = some y) :
    Decomp.Kept H i D (D.setComp i { y with iet := { y.iet with safCache := some (safList c ((LWC.lawful H).unswapped y.iet D.lengths)) } }) :=
  ⟨y, _, hi, rfl, .refl, fun _ _ => rfl, fun _ _ _ _ h => h.setCache hi⟩

/-- A step without a limit. -/
theorem Decomp.Like.unlimitedX (hf : H.CoordinatesOrException f) (hc : ∀ x, c x = 0 → x = 0) (hι : StrictMono ι) {L : PPL} (hL : L.Lawful) {cost : Option ℤ}
    (hcost : ∀ v, cost = some v → 0 ≤ v) : ∀ (n : ℕ) (limit : ℤ) {D D' : Decomp σ T}, 0 ≤ limit → Decomp.Like H D D' → D'.Inv H ι A₀ R au → i < D'.comps.length →
    (∃ st D₁ D₁', Decomp.unlimitedX L (O.rebase f) cost i n limit D = (.ok st, D₁) ∧ Decomp.unlimited L O cost i n limit D' = .ok (st, D₁') ∧ Decomp.Like H D₁ D₁') ∨
    (∃ e D₁ D₁', Throws f e ∧ Decomp.unlimitedX L (O.rebase f) cost i n limit D = (.error e, D₁) ∧ Decomp.Like H D₁ D₁' ∧ Decomp.Kept H i D' D₁') ∨
    ((Decomp.unlimitedX L (O.rebase f) cost i n limit D).1 = .error .fuel ∧ Decomp.unlimited L O cost i n limit D' = .error .fuel) ∨
    ((Decomp.unlimitedX L (O.rebase f) cost i n limit D).1 = .error .ub ∧ Decomp.unlimited L O cost i n limit D' = .error .ub)
  | 0, _, _, _, _, _, _, _ => .inr (.inr (.inl ⟨rfl, rfl⟩))
  | n + 1, limit, D, D', hlim, h, hinv, hi => by
    unfold Decomp.unlimitedX Decomp.unlimited
    rcases h.boundedX hf hc hι hL hinv hi (limit := limit) (by omega) with ⟨st, D₁, D₁', h1, h2, h3, h4⟩ | ⟨e, D₁, D₁', h1, h2, h3, h4⟩
    · rw [h1, h2]
      simp only [Outcome.next, bind, Except.bind]
      by_cases hr : st.result = .limitReached
      · have hn : ¬ st.result ≠ .limitReached := fun g => g hr
        rw [if_neg hn, if_neg hn]
        have hk := (h4 hr).kept hinv
        have hi' : i < D₁'.comps.length := by
          obtain ⟨_, _, _, e, _⟩ := hk
          rw [e, List.length_set]; exact hi
        have key : ∀ lim : ℤ, 0 ≤ lim → _ := fun lim hlim =>
          Decomp.Like.unlimitedX hf hc hι hL hcost n lim hlim h3 ((h4 hr).inv hι hinv) hi'
        have key' : ∀ lim : ℤ, 0 ≤ lim →
            (∃ st D₂ D₂', Decomp.unlimitedX L (O.rebase f) cost i n lim D₁ = (.ok st, D₂) ∧ Decomp.unlimited L O cost i n lim D₁' = .ok (st, D₂') ∧ Decomp.Like H D₂ D₂') ∨
            (∃ e D₂ D₂', Throws f e ∧ Decomp.unlimitedX L (O.rebase f) cost i n lim D₁ = (.error e, D₂) ∧ Decomp.Like H D₂ D₂' ∧ Decomp.Kept H i D' D₂') ∨
            ((Decomp.unlimitedX L (O.rebase f) cost i n lim D₁).1 = .error .fuel ∧ Decomp.unlimited L O cost i n lim D₁' = .error .fuel) ∨
            ((Decomp.unlimitedX L (O.rebase f) cost i n lim D₁).1 = .error .ub ∧ Decomp.unlimited L O cost i n lim D₁' = .error .ub) := by
          intro lim hlim
          rcases key lim hlim with g | ⟨e, D₂, D₂', g1, g2, g3, g4⟩ | g
          · exact .inl g
          · exact .inr (.inl ⟨e, D₂, D₂', g1, g2, g3, hk.trans g4⟩)
          · exact .inr (.inr g)
        cases cost with
        | some v => exact key' v (hcost v rfl)
        | none =>
          simp only
          by_cases hm : 2 * (limit + 1) ≤ Decomp.intMax
          · rw [if_pos hm, if_pos hm]
            exact key' _ (by omega)
          · rw [if_neg hm, if_neg hm]
            exact .inr (.inr (.inr ⟨rfl, rfl⟩))
      · rw [if_pos hr, if_pos hr]
        exact .inl ⟨st, D₁, D₁', rfl, rfl, h3⟩
    · rw [h2]
      refine .inr (.inl ⟨e, D₁, D₁', h1, rfl, h3, ?_⟩)
      rcases h4 with ⟨-, rfl⟩ | h4
      · exact .refl hi
      · exact h4.kept hinv

/-- A step: it does the same as for a decomposition for which nothing is thrown, or it throws and keeps the invariant. -/
theorem Decomp.Like.stepX (hf : H.CoordinatesOrException f) (hc : ∀ x, c x = 0 → x = 0) (hι : StrictMono ι) {L : PPL} (hL : L.Lawful) (h : Decomp.Like H D D')
    (hinv : D'.Inv H ι A₀ R au) (hi : i < D'.comps.length) (fuel : ℕ) (limit : ℤ) :
    (∃ st D₁ D₁', D.decompositionStepX L (O.rebase f) fuel limit i = (.ok st, D₁) ∧ D'.decompositionStep L O fuel limit i = .ok (st, D₁') ∧ Decomp.Like H D₁ D₁') ∨
    (∃ e D₁ D₁', Throws f e ∧ D.decompositionStepX L (O.rebase f) fuel limit i = (.error e, D₁) ∧ Decomp.Like H D₁ D₁' ∧ Decomp.Kept H i D' D₁') ∨
    limit = -1 ∧ (((D.decompositionStepX L (O.rebase f) fuel limit i).1 = .error .fuel ∧ D'.decompositionStep L O fuel limit i = .error .fuel) ∨
      ((D.decompositionStepX L (O.rebase f) fuel limit i).1 = .error .ub ∧ D'.decompositionStep L O fuel limit i = .error .ub)) := by
  unfold Decomp.decompositionStepX Decomp.decompositionStep
  by_cases hl : limit = -1
  · rw [if_pos hl, if_pos hl]
    have hi' := List.getElem?_eq_getElem hi
    generalize D'.comps[i] = y at hi'
    obtain ⟨x, hx, hxy⟩ := (h.comp i).symm.ok_left (Decomp.comp_ok hi')
    have hy := List.mem_of_getElem? hi'
    have hk : ¬ (x.cylinder = some true ∧ x.keane = some true) := fun h' => (hinv.flags y hy).keane (hxy.keane ▸ h'.2)
    have hk' : ¬ (y.cylinder = some true ∧ y.keane = some true) := fun h' => (hinv.flags y hy).keane h'.2
    rw [hx, Decomp.comp_ok hi', h.lengths]
    simp only [assertM, bind, Except.bind]
    rw [if_neg hk, if_pos (decide_eq_true hk')]
    simp only
    rcases hxy.iet.costX hf hc with ⟨cost, E, F, c1, c2, c3, c4, c5⟩ | ⟨e, c1, c2⟩
    · rw [c1, c2]
      simp only
      have hkept := Decomp.kept_setCache (H := H) hi'
      rw [← c3] at hkept
      have hinv' := hinv.setCache hi'
      rw [← c3] at hinv'
      have hlike : Decomp.Like H (D.setComp i { x with iet := E }) (D'.setComp i { y with iet := F }) :=
        Decomp.Looks.setComp h i ⟨c5.top, c5.bottom, c5.swapped, hxy.cylinder, hxy.withoutPeriodicTrajectory, hxy.keane, c5⟩
      rcases Decomp.Like.unlimitedX hf hc hι hL (fun v hv => (c4 v hv).le) fuel 0 le_rfl hlike hinv' (by simpa [Decomp.setComp] using hi) with
        g | ⟨e, D₁, D₁', g1, g2, g3, g4⟩ | g
      · exact .inl g
      · exact .inr (.inl ⟨e, D₁, D₁', g1, g2, g3, hkept.trans g4⟩)
      · exact .inr (.inr ⟨hl, g⟩)
    · rw [c2]
      refine .inr (.inl ⟨e, _, D', c1, rfl, ?_, .refl hi⟩)
      rw [Decomp.setComp_self hx]
      exact h
  · rw [if_neg hl, if_neg hl]
    rcases h.boundedX hf hc hι hL hinv hi hl with ⟨st, D₁, D₁', h1, h2, h3, -⟩ | ⟨e, D₁, D₁', h1, h2, h3, h4⟩
    · exact .inl ⟨st, D₁, D₁', h1, h2, h3⟩
    · refine .inr (.inl ⟨e, D₁, D₁', h1, h2, h3, ?_⟩)
      rcases h4 with ⟨-, rfl⟩ | h4
      · exact .refl hi
      · exact h4.kept hinv

end

end Verif
