import Verif.Proofs.Decomposition
import Verif.ReachDecomp

/-!
# Histories of decompositions
-/

namespace Verif

set_option linter.unusedSectionVars false

variable {σ T ε : Type} [CommRing T] [LinearOrder T] [IsStrictOrderedRing T] {O : LengthsOps σ T}
  {d : ℕ} {c : T →+ (Fin d → ℚ)} {P : Type} [CommRing P] [LinearOrder P] [IsStrictOrderedRing P]

theorem CompsEffect.limit {comps comps' : List (Comp T)} {i : ℕ} {x : Comp T} {step : DStep} (h : CompsEffect comps i x step comps')
    (hr : step.result = .limitReached) : ∃ x', comps' = comps.set i x' ∧ x'.iet.top.Perm x.iet.top ∧ x'.cylinder = x.cylinder ∧
      x'.withoutPeriodicTrajectory = x.withoutPeriodicTrajectory ∧ step.connection = none := by
  cases h with
  | same h1 _ _ _ _ h6 h7 => exact ⟨_, rfl, h6, (h7 hr).1, (h7 hr).2, h1⟩
  | split h1 => rw [h1] at hr; cases hr
  | merge h1 => rw [h1] at hr; cases hr

theorem CompsEffect.trans {comps comps' : List (Comp T)} {i : ℕ} {x x' : Comp T} {step : DStep}
    (h : CompsEffect (comps.set i x') i x' step comps') (h1 : x'.iet.top.Perm x.iet.top) (h2 : x'.cylinder = x.cylinder)
    (h3 : x'.withoutPeriodicTrajectory = x.withoutPeriodicTrajectory) : CompsEffect comps i x step comps' := by
  cases h with
  | same g1 g2 g3 g4 g5 g6 g7 g8 g9 g10 =>
    rw [List.set_set]
    exact .same g1 g2 g3 g4 g5 (g6.trans h1) (fun h => by rw [← h2, ← h3]; exact g7 h) g8 g9 g10
  | split g1 g2 g3 g4 g5 g6 g7 g8 g9 g10 g11 =>
    rw [List.set_set]
    exact .split g1 g2 (by rw [g3, List.length_set]) (g4.trans h1) g5 g6 g7 (g8.trans h2) (g9.trans h3) g10 g11
  | merge g1 g2 g3 g4 g5 g6 g7 =>
    rw [List.set_set]
    exact .merge g1 g2 g3 (g4.trans h1) g5 (g6.trans h2) (g7.trans h3)

variable {H : LawfulLengths O c ε} {ι : T →+ P} {A₀ : AIET T} {D : Decomp σ T} {R : List Conn} {au : Bool → Prop}

/-- Computing the SAF invariant fills the cache of a component. -/
theorem Decomp.Inv.setCache (h : D.Inv H ι A₀ R au) {i : ℕ} {x : Comp T} (hi : D.comps[i]? = some x) :
    Decomp.Inv H ι A₀ (D.setComp i
      { x with iet := { x.iet with safCache := some (safList c ((LWC.lawful H).unswapped x.iet D.lengths)) } }) R au := by
  have hx := List.mem_of_getElem? hi
  have := h.build (s' := D.lengths) (R' := R)
    (x' := { x with iet := { x.iet with safCache := some (safList c ((LWC.lawful H).unswapped x.iet D.lengths)) } }) (more := [])
    hi rfl (fun _ _ => rfl) (fun _ => id) (h.good x hx).setCache (h.swapped x hx)
    ((h.flags x hx).mono (fun _ => id) rfl rfl rfl id (fun _ h => h)) (by simp) (by
      intro oc hoc htr
      obtain ⟨q, hq, hq'⟩ : ∃ q, oc[i]? = some q ∧ q.2 = x := by
        rw [← hoc, List.getElem?_map] at hi
        cases hq : oc[i]? with
        | none => rw [hq] at hi; cases hi
        | some q => rw [hq] at hi; simp only [Option.map_some, Option.some.injEq] at hi; exact ⟨q, rfl, hi⟩
      refine ⟨q.1, [], rfl, ?_⟩
      have h1 := htr.perm ((perm_cons_eraseIdx hq).map (fun q : P × Comp T => (q.1, (H.abs q.2.iet D.lengths.inner).map ι)))
      simp only [List.map_cons] at h1
      simp only [LawfulLengths.abs, hq'] at h1 ⊢
      exact h1)
  simpa [Decomp.setComp] using this

theorem unlimited_spec (hι : StrictMono ι) {L : PPL} (hL : L.Lawful) {cost : Option ℤ} (hcost : ∀ v, cost = some v → 0 ≤ v) {i : ℕ} :
    ∀ (n : ℕ) (limit : ℤ) (D : Decomp σ T) (x : Comp T), 0 ≤ limit → D.Inv H ι A₀ R au → D.comps[i]? = some x →
    (∃ step D', Decomp.unlimited L O cost i n limit D = .ok (step, D') ∧ step.result ≠ .limitReached ∧
      D'.Inv H ι A₀ (R ++ step.connection.toList) (fun b => au b ∨ AutoReport O D' i step b) ∧ CompsEffect D.comps i x step D'.comps ∧
      (∀ a, a ∉ x.iet.top → H.len D'.lengths.inner a = H.len D.lengths.inner a) ∧ Looped A₀.top A₀.bottom D' step) ∨
    Decomp.unlimited L O cost i n limit D = .error .fuel ∨ (cost = none ∧ Decomp.unlimited L O cost i n limit D = .error .ub) := by
  intro n
  induction n with
  | zero => intro limit D x _ _ _; exact .inr (.inl rfl)
  | succ n ih =>
    intro limit D x hlim h hi
    obtain ⟨step, D', h1, h2, h3, h4, h5⟩ := decompositionStepBounded_spec hι hL h hi (limit := limit) (by omega)
    simp only [Decomp.unlimited, h1, bind, Except.bind]
    by_cases hr : step.result = .limitReached
    · rw [if_neg (by simpa using hr)]
      obtain ⟨x', e1, e2, e3, e4, e5⟩ := h3.limit hr
      rw [e5, Option.toList_none, List.append_nil] at h2
      have h2 : D'.Inv H ι A₀ R au := by
        simpa [AutoReport, hr] using h2
      have hi' : D'.comps[i]? = some x' := by
        rw [e1, List.getElem?_set_self (List.getElem?_eq_some_iff.mp hi).1]
      have key : ∀ lim, 0 ≤ lim → (∃ step D'', Decomp.unlimited L O cost i n lim D' = .ok (step, D'') ∧ step.result ≠ .limitReached ∧
          D''.Inv H ι A₀ (R ++ step.connection.toList) (fun b => au b ∨ AutoReport O D'' i step b) ∧ CompsEffect D.comps i x step D''.comps ∧
          (∀ a, a ∉ x.iet.top → H.len D''.lengths.inner a = H.len D.lengths.inner a) ∧ Looped A₀.top A₀.bottom D'' step) ∨
          Decomp.unlimited L O cost i n lim D' = .error .fuel ∨ (cost = none ∧ Decomp.unlimited L O cost i n lim D' = .error .ub) := by
        intro lim hlim'
        rcases ih lim D' x' hlim' h2 hi' with ⟨st, D'', g1, g2, g3, g4, g5, g6⟩ | g
        · refine .inl ⟨st, D'', g1, g2, g3, (e1 ▸ g4).trans e2 e3 e4, fun a ha => ?_, g6⟩
          rw [g5 a (fun h => ha (e2.mem_iff.mp h)), h4 a ha]
        · exact .inr g
      cases cost with
      | some v => exact key v (hcost v rfl)
      | none =>
        by_cases hm : 2 * (limit + 1) ≤ Decomp.intMax
        · have := key (2 * (limit + 1)) (by omega)
          simp only [if_pos hm]
          simpa using this
        · simp only [if_neg hm]
          exact .inr (.inr (by simp))
    · rw [if_pos hr]
      exact .inl ⟨step, D', rfl, hr, h2, h3, h4, h5⟩

/-- A step returns and keeps the invariant, or it has no limit and does not terminate or overflows its limit. -/
theorem decompositionStep_spec (hι : StrictMono ι) {L : PPL} (hL : L.Lawful) (h : D.Inv H ι A₀ R au) {i : ℕ} {x : Comp T}
    (hi : D.comps[i]? = some x) (fuel : ℕ) (limit : ℤ) :
    (∃ step D', D.decompositionStep L O fuel limit i = .ok (step, D') ∧ D'.Inv H ι A₀ (R ++ step.connection.toList) (fun b => au b ∨ AutoReport O D' i step b) ∧
      CompsEffect D.comps i x step D'.comps ∧ (limit = -1 → step.result ≠ .limitReached) ∧
      (∀ a, a ∉ x.iet.top → H.len D'.lengths.inner a = H.len D.lengths.inner a) ∧ Looped A₀.top A₀.bottom D' step) ∨
    (limit = -1 ∧ (D.decompositionStep L O fuel limit i = .error .fuel ∨
      (D.decompositionStep L O fuel limit i = .error .ub ∧ ∀ v ∈ safList c (H.abs x.iet D.lengths.inner), v = 0))) := by
  by_cases hl : limit = -1
  · subst hl
    have hx := List.mem_of_getElem? hi
    have hk : ¬ (x.cylinder = some true ∧ x.keane = some true) := fun h' => (h.flags x hx).keane h'.2
    have hi' : (D.setComp i { x with iet := { x.iet with safCache := some (safList c ((LWC.lawful H).unswapped x.iet D.lengths)) } }).comps[i]? =
        some { x with iet := { x.iet with safCache := some (safList c ((LWC.lawful H).unswapped x.iet D.lengths)) } } := by
      simp only [Decomp.setComp]
      rw [List.getElem?_set_self (List.getElem?_eq_some_iff.mp hi).1]
    have hrun : D.decompositionStep L O fuel (-1) i =
        Decomp.unlimited L O (if ∀ v ∈ safList c (H.abs x.iet D.lengths.inner), v = 0 then none else some 64) i fuel 0
          (D.setComp i { x with iet := { x.iet with safCache := some (safList c ((LWC.lawful H).unswapped x.iet D.lengths)) } }) := by
      unfold Decomp.decompositionStep
      rw [if_pos rfl]
      simp only [Decomp.comp_ok hi, assertM, bind, Except.bind]
      rw [if_pos (decide_eq_true hk)]
      simp only
      rw [boshernitzanCost_spec H (h.good x hx)]
    rw [hrun]
    rcases unlimited_spec hι hL (cost := if ∀ v ∈ safList c (H.abs x.iet D.lengths.inner), v = 0 then none else some 64)
      (fun v hv => by
        split at hv
        · cases hv
        · cases hv; norm_num) fuel 0 _ _ le_rfl (h.setCache hi) hi' with ⟨st, D', g1, g2, g3, g4, g5, g6⟩ | g | ⟨g0, g⟩
    · refine .inl ⟨st, D', g1, g3, ?_, fun _ => g2, g5, g6⟩
      exact CompsEffect.trans g4 (.refl _) rfl rfl
    · exact .inr ⟨rfl, .inl g⟩
    · refine .inr ⟨rfl, .inr ⟨g, ?_⟩⟩
      by_contra hne
      rw [if_neg hne] at g0
      cases g0
  · obtain ⟨step, D', h1, h2, h3, h4, h5⟩ := decompositionStepBounded_spec hι hL h hi hl
    refine .inl ⟨step, D', ?_, h2, h3, fun h => absurd h hl, h4, h5⟩
    unfold Decomp.decompositionStep
    rw [if_neg hl, h1]

/-- A new decomposition. -/
theorem Decomp.make_spec (H : LawfulLengths O c ε) (hι : StrictMono ι) {E : IET T} {s : σ} (h : H.Ok E s) :
    ∃ D, Decomp.make O E s = .ok D ∧ D.comps = [{ iet := .fresh E.top E.bottom }] ∧ D.lengths.inner = s ∧ D.Inv H ι (H.abs E s) [] (fun _ => False) := by
  have hok : (LWC.lawful H).Ok (IET.fresh E.top E.bottom : IET T) ⟨s, [], ⟨E.top, fun _ => {}⟩, []⟩ := by
    refine ⟨⟨h.inv, h.stack, h.nonneg⟩, rfl, fun a ha => ⟨h.dom a ha, ha⟩, h.valid, fun a ha => h.nonneg a ha.1⟩
  have h1 : IET.mk? (LWC.ops O) E.top E.bottom ⟨s, [], ⟨[], fun _ => {}⟩, []⟩ = .ok (IET.fresh E.top E.bottom : IET T) := by
    have := mk?_spec H h.inv h.valid h.dom
    exact this
  have hmk : Decomp.make O E s = .ok ⟨[{ iet := .fresh E.top E.bottom }], ⟨s, [], ⟨E.top, fun _ => {}⟩, []⟩⟩ := by
    simp only [Decomp.make, h1, bind, Except.bind, pure, Except.pure]
  refine ⟨_, hmk, rfl, rfl, ?_⟩
  refine ⟨?_, ?_, ?_, ⟨[(0, { iet := .fresh E.top E.bottom })], rfl, ?_⟩⟩
  · simp only [List.mem_singleton, forall_eq]
    exact .fresh hok
  · simp only [List.mem_singleton, forall_eq]
    rfl
  · simp only [List.mem_singleton, forall_eq]
    exact .fresh _ _
  · exact Track.init (A₀ := (H.abs E s).map ι) (h.valid.map hι) rfl (fun _ => rfl)

theorem reported_concat (steps : List DStep) (st : DStep) : reported (steps ++ [st]) = reported steps ++ st.connection.toList := by
  unfold reported
  rw [List.filterMap_append]
  congr 1

/-- A call of `decompositionStep` that returns keeps the invariant. -/
theorem Decomp.Inv.call {L : PPL} (hL : L.Lawful) (hι : StrictMono ι) (ih : D.Inv H ι A₀ R au) {fuel : ℕ} {limit : ℤ} {i : ℕ}
    {step : DStep} {D' : Decomp σ T} (h2 : D.decompositionStep L O fuel limit i = .ok (step, D')) :
    D'.Inv H ι A₀ (R ++ step.connection.toList) (fun b => au b ∨ AutoReport O D' i step b) := by
  have hi : ∃ x, D.comps[i]? = some x := by
    cases hx : D.comps[i]? with
    | some x => exact ⟨x, rfl⟩
    | none =>
      exfalso
      simp only [Decomp.decompositionStep, Decomp.decompositionStepBounded, Decomp.comp, hx, bind, Except.bind] at h2
      split at h2 <;> cases h2
  obtain ⟨x, hx⟩ := hi
  rcases decompositionStep_spec hι hL ih hx fuel limit with ⟨step', D'', g1, g2, _⟩ | ⟨_, g | ⟨g, _⟩⟩
  · rw [h2] at g1
    cases g1
    exact g2
  · rw [h2] at g; cases g
  · rw [h2] at g; cases g

/-- The invariant holds in all reachable states. -/
theorem DReach.inv {L : PPL} (hL : L.Lawful) (H : LawfulLengths O c ε) (hι : StrictMono ι) {E : IET T} {s : σ} (hE : H.Ok E s)
    {steps : List DStep} (h : DReach L O E s D steps) :
    D.Inv H ι (H.abs E s) (reported steps) (fun _ => ∃ st ∈ steps, st.result = .withoutPeriodicTrajectoryAutoSimilar) := by
  induction h with
  | init h =>
    obtain ⟨D', h1, _, _, h2⟩ := Decomp.make_spec H hι hE
    rw [h] at h1
    cases h1
    simpa [reported] using h2
  | @step D D' steps step fuel limit i h1 h2 ih =>
    rw [reported_concat]
    refine (ih.call hL hι h2).imp ?_
    rintro _ (⟨st, a1, a2⟩ | ⟨a1, _⟩)
    · exact ⟨st, List.mem_append_left _ a1, a2⟩
    · exact ⟨step, by simp, a1⟩

/-- The invariant holds in all states reached without an AUTO_SIMILAR report for a component that was not aligned. -/
theorem DReachOrdered.inv {L : PPL} (hL : L.Lawful) (H : LawfulLengths O c ε) (hι : StrictMono ι) {E : IET T} {s : σ} (hE : H.Ok E s)
    {steps : List DStep} (h : DReachOrdered L O E s D steps) : D.Inv H ι (H.abs E s) (reported steps) (fun b => b = true) := by
  induction h with
  | init h =>
    obtain ⟨D', h1, _, _, h2⟩ := Decomp.make_spec H hι hE
    rw [h] at h1
    cases h1
    exact h2.imp (by simp)
  | @step D D' steps step fuel limit i h1 h2 h3 ih =>
    rw [reported_concat]
    refine (ih.call hL hι h2).imp ?_
    rintro _ (a | ⟨a1, x, a2, a3⟩)
    · exact a
    · exact a3.mp (h3 a1 x a2)

/-- What a call of `decompositionStep` that returns does in a reachable state. -/
theorem DReach.effect {L : PPL} (hL : L.Lawful) (H : LawfulLengths O c ε) {E : IET T} {s : σ} (hE : H.Ok E s)
    {steps : List DStep} (h : DReach L O E s D steps) {fuel : ℕ} {limit : ℤ} {i : ℕ} {step : DStep} {D' : Decomp σ T}
    (hr : D.decompositionStep L O fuel limit i = .ok (step, D')) :
    ∃ x, D.comps[i]? = some x ∧ CompsEffect D.comps i x step D'.comps ∧ (limit = -1 → step.result ≠ .limitReached) ∧
      (∀ a, a ∉ x.iet.top → H.len D'.lengths.inner a = H.len D.lengths.inner a) ∧ Looped E.top E.bottom D' step := by
  have hinv := h.inv hL H (ι := AddMonoidHom.id T) (fun _ _ h => h) hE
  have hi : ∃ x, D.comps[i]? = some x := by
    cases hx : D.comps[i]? with
    | some x => exact ⟨x, rfl⟩
    | none =>
      exfalso
      simp only [Decomp.decompositionStep, Decomp.decompositionStepBounded, Decomp.comp, hx, bind, Except.bind] at hr
      split at hr <;> cases hr
  obtain ⟨x, hx⟩ := hi
  refine ⟨x, hx, ?_⟩
  rcases decompositionStep_spec (fun _ _ h => h) hL hinv hx fuel limit with ⟨step', D'', g1, _, g2, g3, g4, g5⟩ | ⟨_, g | ⟨g, _⟩⟩
  · rw [hr] at g1
    cases g1
    exact ⟨g2, g3, g4, g5⟩
  · rw [hr] at g; cases g
  · rw [hr] at g; cases g

/-- The original has a periodic point iff some piece has one. -/
theorem Covers.periodic_iff {A : AIET P} {pieces : List (P × AIET P)} (hA : A.Valid) (h : Covers A pieces) :
    (∃ x, Periodic A.Maps x) ↔ ∃ p ∈ pieces, ∃ x, Periodic p.2.Maps x := by
  constructor
  · rintro ⟨x, hx⟩
    obtain ⟨h0, h1⟩ := hA.transGen_dom hx
    obtain ⟨p, hp, y, hy, hin⟩ := h.meets x h0 h1
    have := transGen_of_reflTransGen_cycle hA.maps_fun hx hy
    exact ⟨p, hp, y - p.1, h.transGen_piece (o := p.1) (A := p.2) hp hin hin this⟩
  · rintro ⟨p, hp, x, hx⟩
    refine ⟨x + p.1, ?_⟩
    have hv := h.valid p hp
    have key : ∀ y, Relation.TransGen p.2.Maps x y → Relation.TransGen A.Maps (x + p.1) (y + p.1) := by
      intro y hy
      induction hy with
      | single h1 =>
        have hd := hv.maps_dom h1
        exact ((h.maps p hp _ _ hd.1 hd.2).mp h1).transGen
      | tail _ h1 ih =>
        have hd := hv.maps_dom h1
        exact ih.trans ((h.maps p hp _ _ hd.1 hd.2).mp h1).transGen
    exact key x hx

end Verif
