import Verif.Proofs.Parametric
import Verif.Proofs.Decompose
import Verif.Proofs.Rounds

/-!
# Connections have no influence on the dynamics

Two decompositions which only differ in the connections that are stored in them evolve in the same way.
-/

namespace Verif

set_option linter.unusedSectionVars false

variable {σ T : Type}

/-- Two states of `LengthsWithConnections` which only differ in the connections that are stored. -/
structure LWC.Alike (s t : LWC σ) : Prop where
  inner : s.inner = t.inner
  stack : s.stack = t.stack
  keys : s.conns.keys = t.conns.keys

theorem LWC.subtractConns_alike {m m' : ConnMap} (h : m.keys = m'.keys) (cs cs' : List Ctx) (a b : Label) :
    RelM (fun m m' => m.keys = m'.keys) (LWC.subtractConns cs a b m) (LWC.subtractConns cs' a b m') := by
  have hk : ∀ (o : Bool) (m : ConnMap), (LWC.splice o a b m).keys = m.keys := by
    intro o m
    cases o <;> rfl
  simp only [LWC.subtractConns, ConnMap.at', h, bind, Except.bind, pure, Except.pure]
  by_cases hb : b ∈ m'.keys
  · by_cases ha : a ∈ m'.keys
    · simp only [if_pos ha, if_pos hb]
      split
      · exact rfl
      · show _ = _
        rw [hk, hk, h]
    · simp only [if_pos hb, if_neg ha]; exact rfl
  · simp only [if_neg hb]; exact rfl

theorem LWC.opsRel (O : LengthsOps σ T) : OpsRel LWC.Alike (LWC.ops O) (LWC.ops O) where
  push l s t h := by
    obtain ⟨s1, s2, s3, s4⟩ := s
    obtain ⟨t1, t2, t3, t4⟩ := t
    obtain ⟨rfl, rfl, h3⟩ := h
    simp only [LWC.ops, LWC.push]
    refine (RelM.of_eq rfl).bind ?_
    rintro _ _ rfl
    refine (RelM.of_eq rfl).bind ?_
    rintro _ _ rfl
    exact ⟨rfl, rfl, h3⟩
  pop s t h := by
    obtain ⟨s1, s2, s3, s4⟩ := s
    obtain ⟨t1, t2, t3, t4⟩ := t
    obtain ⟨rfl, rfl, h3⟩ := h
    simp only [LWC.ops, LWC.pop]
    refine (RelM.of_eq rfl).bind ?_
    rintro _ _ rfl
    refine (RelM.of_eq rfl).bind ?_
    rintro _ _ rfl
    exact ⟨rfl, rfl, h3⟩
  subtract x l s t h := by
    obtain ⟨s1, s2, s3, s4⟩ := s
    obtain ⟨t1, t2, t3, t4⟩ := t
    obtain ⟨rfl, rfl, h3⟩ := h
    simp only [LWC.ops, LWC.subtract]
    cases s2 with
    | nil => exact ⟨rfl, rfl, h3⟩
    | cons b s2 =>
      simp only
      refine (RelM.of_eq rfl).bind ?_
      rintro _ _ rfl
      refine (LWC.subtractConns_alike h3 _ _ _ _).bind ?_
      intro m m' hm
      exact ⟨rfl, rfl, hm⟩
  subtractRepeated x l s t h := by
    obtain ⟨s1, s2, s3, s4⟩ := s
    obtain ⟨t1, t2, t3, t4⟩ := t
    obtain ⟨rfl, rfl, h3⟩ := h
    simp only [LWC.ops, LWC.subtractRepeated]
    cases s2 with
    | nil => exact rfl
    | cons b s2 =>
      simp only
      refine (RelM.of_eq rfl).bind ?_
      rintro _ _ rfl
      refine (LWC.subtractConns_alike h3 _ _ _ _).bind ?_
      intro m m' hm
      exact ⟨rfl, rfl, rfl, hm⟩
  coefficients ls s t h := by simp only [LWC.ops, h.inner]
  cmp l s t h := by simp only [LWC.ops, h.inner]
  cmp2 l r s t h := by simp only [LWC.ops, h.inner]
  get l s t h := by simp only [LWC.ops, h.inner]
  forget s t h := by simp only [LWC.ops, h.inner]

/-- Two decompositions which only differ in the connections that are stored. -/
structure Decomp.Alike (D D₀ : Decomp σ T) : Prop where
  comps : D.comps = D₀.comps
  lengths : D.lengths.Alike D₀.lengths

theorem Decomp.Alike.refl (D : Decomp σ T) : D.Alike D := ⟨rfl, rfl, rfl, rfl⟩

theorem Decomp.Alike.symm {D D' : Decomp σ T} (h : D.Alike D') : D'.Alike D :=
  ⟨h.1.symm, h.2.1.symm, h.2.2.symm, h.2.3.symm⟩

theorem Decomp.Alike.trans {D D' D'' : Decomp σ T} (h : D.Alike D') (h' : D'.Alike D'') : D.Alike D'' :=
  ⟨h.1.trans h'.1, h.2.1.trans h'.2.1, h.2.2.trans h'.2.2, h.2.3.trans h'.2.3⟩

/-- Two steps which at most differ in the names of the connection and of the sides of its equivalent. -/
structure DStep.Alike (a b : DStep) : Prop where
  result : a.result = b.result
  additional : a.additional = b.additional
  connection : a.connection.isSome = b.connection.isSome

/-- Changing the connections of a label. -/
theorem Decomp.modify_alike {D D' : Decomp σ T} {l : Label} {f : Conns → Conns} (h : D.modify l f = .ok D') : D'.Alike D := by
  simp only [Decomp.modify, ConnMap.update, bindM_ok, pure, Except.pure, Except.ok.injEq] at h
  obtain ⟨m, ⟨c, h1, rfl⟩, rfl⟩ := h
  exact ⟨rfl, rfl, rfl, rfl⟩

theorem Decomp.inject_alike {D D' : Decomp σ T} {h : HalfEdge} {left right : List (Label × Label)} {r : List Conn × List Conn}
    (hr : D.inject h left right = .ok (r, D')) : D'.Alike D := by
  simp only [Decomp.inject, bindM_ok] at hr
  obtain ⟨⟨⟩, -, cs, -, ⟨⟩, -, D₁, h4, ⟨⟩, -, D₂, h6, ⟨⟩, -, h8⟩ := hr
  cases h8
  exact (Decomp.modify_alike h6).trans (Decomp.modify_alike h4)

theorem Decomp.registerSeparating_alike {D D' : Decomp σ T} {i j : ℕ} {conn : Conn} (h : D.registerSeparating i conn j = .ok D') : D'.Alike D := by
  simp only [Decomp.registerSeparating, bindM_ok] at h
  obtain ⟨⟨⟩, -, ⟨⟩, -, x, -, l, -, D₁, h1, y, -, r, -, D₂, h2, _, -, ⟨⟩, -, _, -, ⟨⟩, -, h3⟩ := h
  cases h3
  exact (Decomp.modify_alike h2).trans (Decomp.modify_alike h1)

theorem Decomp.separating_alike {D D' : Decomp σ T} {i : ℕ} {b t : Label} {R : IET T} {st : DStep} (h : D.separating i b t R = .ok (st, D')) :
    D'.Alike { D with comps := D.comps ++ [{ iet := R }] } ∧ st.result = .separatingConnection ∧ st.additional = some D.comps.length ∧
      st.connection.isSome = true := by
  simp only [Decomp.separating, bindM_ok] at h
  obtain ⟨x, -, l, -, l', -, eqv, -, s, -, s', -, D₁, h1, h2⟩ := h
  cases h2
  exact ⟨Decomp.registerSeparating_alike h1, rfl, rfl, rfl⟩

theorem Decomp.nonSeparating_alike {D D' : Decomp σ T} {i : ℕ} {b t : Label} {st : DStep} (h : D.nonSeparating i b t = .ok (st, D')) :
    D'.Alike D ∧ st.result = .nonSeparatingConnection ∧ st.additional = none ∧ st.connection.isSome = true := by
  simp only [Decomp.nonSeparating, bindM_ok] at h
  obtain ⟨⟨⟩, -, x, -, y, -, s, -, s', -, z, -, f, -, ⟨⟩, -, D₁, h1, D₂, h2, ct, -, D₃, h3, D₄, h4, l, -, ⟨⟩, -, h5⟩ := h
  cases h5
  exact ⟨(Decomp.modify_alike h4).trans ((Decomp.modify_alike h3).trans ((Decomp.modify_alike h2).trans (Decomp.modify_alike h1))), rfl, rfl, rfl⟩

theorem Decomp.Alike.conclude {D D₀ D' D₀' : Decomp σ T} (h : D.Alike D₀) {i : ℕ} {step : InductionStep T} {st st₀ : DStep}
    (h1 : D.conclude i step = .ok (st, D')) (h2 : D₀.conclude i step = .ok (st₀, D₀')) : D'.Alike D₀' ∧ st.Alike st₀ := by
  simp only [Decomp.conclude, bindM_ok] at h1 h2
  obtain ⟨x, hx, h1⟩ := h1
  obtain ⟨y, hy, h2⟩ := h2
  have hxy : x = y := by
    simp only [Decomp.comp, h.comps] at hx hy
    rw [hx] at hy
    cases hy
    rfl
  subst hxy
  obtain ⟨r, conn, add⟩ := step
  have hset : ∀ z, (D.setComp i z).Alike (D₀.setComp i z) := fun z => ⟨by simp only [Decomp.setComp, h.comps], h.lengths⟩
  cases r <;> simp only at h1 h2
  case cylinder => cases h1; cases h2; exact ⟨hset _, rfl, rfl, rfl⟩
  case limitReached => cases h1; cases h2; exact ⟨h, rfl, rfl, rfl⟩
  case withoutPeriodicTrajectoryBoshernitzan => cases h1; cases h2; exact ⟨hset _, rfl, rfl, rfl⟩
  case withoutPeriodicTrajectoryAutoSimilar => cases h1; cases h2; exact ⟨hset _, rfl, rfl, rfl⟩
  case separatingConnection =>
    cases conn with
    | none => cases h1
    | some p => cases add with
      | none => cases h1
      | some R =>
        obtain ⟨b, t⟩ := p
        simp only at h1 h2
        obtain ⟨a1, a2, a3, a4⟩ := Decomp.separating_alike h1
        obtain ⟨b1, b2, b3, b4⟩ := Decomp.separating_alike h2
        refine ⟨a1.trans (Decomp.Alike.trans ?_ b1.symm), a2.trans b2.symm, ?_, a4.trans b4.symm⟩
        · exact ⟨by simp only [h.comps], h.lengths⟩
        · rw [a3, b3, h.comps]
  case nonSeparatingConnection =>
    cases conn with
    | none => cases h1
    | some p =>
      obtain ⟨b, t⟩ := p
      simp only at h1 h2
      obtain ⟨a1, a2, a3, a4⟩ := Decomp.nonSeparating_alike h1
      obtain ⟨b1, b2, b3, b4⟩ := Decomp.nonSeparating_alike h2
      exact ⟨a1.trans (h.trans b1.symm), a2.trans b2.symm, a3.trans b3.symm, a4.trans b4.symm⟩
  all_goals cases h1

variable [CommRing T] [LinearOrder T] {O : LengthsOps σ T}

/-- The part of a step before the connections are recorded. -/
theorem Decomp.Alike.bounded_conclude {D D₀ : Decomp σ T} (h : D.Alike D₀) {L : PPL} {limit : ℤ} {i : ℕ} {r : DStep × Decomp σ T}
    (h1 : D.decompositionStepBounded L O limit i = .ok r) : ∃ D₁ D₂ step, Decomp.Alike D₁ D₂ ∧ D₁.conclude i step = .ok r ∧
      D₀.decompositionStepBounded L O limit i = D₂.conclude i step := by
  simp only [Decomp.decompositionStepBounded, bindM_ok] at h1
  obtain ⟨x, hx, ⟨⟩, ha, ⟨cost, E⟩, hc, ⟨step, E', s'⟩, hs, h1⟩ := h1
  have hst : LWC.Alike { D.lengths with others := D.others i } { D₀.lengths with others := D₀.others i } := ⟨h.2.1, h.2.2, h.2.3⟩
  rw [(LWC.opsRel O).cost _ _ _ hst] at hc
  obtain ⟨⟨step₀, E₀, s₀⟩, g1, g2, g3, g4⟩ := ((LWC.opsRel O).chunks L cost _ limit E _ _ hst).ok_left hs
  simp only at g2 g3 g4
  subst g2 g3
  refine ⟨_, { D₀.setComp i { x with iet := E' } with lengths := s₀ }, step, ?_, h1, ?_⟩
  · exact ⟨by simp only [Decomp.setComp, h.comps], g4⟩
  · have hx' : D₀.comp i = .ok x := by simpa only [Decomp.comp, h.comps] using hx
    simp only [Decomp.decompositionStepBounded, hx', ha, hc, g1, bind, Except.bind]

theorem Decomp.Alike.bounded {D D₀ D' D₀' : Decomp σ T} (h : D.Alike D₀) {L : PPL} {limit : ℤ} {i : ℕ} {st st₀ : DStep}
    (h1 : D.decompositionStepBounded L O limit i = .ok (st, D')) (h2 : D₀.decompositionStepBounded L O limit i = .ok (st₀, D₀')) :
    D'.Alike D₀' ∧ st.Alike st₀ := by
  obtain ⟨D₁, D₂, step, g1, g2, g3⟩ := h.bounded_conclude h1
  rw [g3] at h2
  exact g1.conclude g2 h2


/-! ### Steps of decompositions that only differ in their connections -/

section

variable [IsStrictOrderedRing T] {ε : Type} {d : ℕ} {c : T →+ (Fin d → ℚ)} {P : Type} [CommRing P] [LinearOrder P] [IsStrictOrderedRing P]
  {H : LawfulLengths O c ε} {ι : T →+ P} {A₀ : AIET T} {R : List Conn} {au : Bool → Prop}

theorem Decomp.Alike.comp {D D₀ : Decomp σ T} (h : D.Alike D₀) (i : ℕ) : D.comp i = D₀.comp i := by simp only [Decomp.comp, h.comps]

theorem Decomp.comp_some {D : Decomp σ T} {i : ℕ} {x : Comp T} (h : D.comp i = .ok x) : D.comps[i]? = some x := by
  simp only [Decomp.comp] at h
  split at h
  · next h' => cases h; exact h'
  · cases h

theorem Decomp.Alike.unlimited (hι : StrictMono ι) {L : PPL} (hL : L.Lawful) {cost : Option ℤ} (hcost : ∀ v, cost = some v → 0 ≤ v) {i : ℕ} :
    ∀ (n : ℕ) (limit : ℤ) (D D₀ : Decomp σ T) (st : DStep) (D' : Decomp σ T), 0 ≤ limit → D.Alike D₀ → D₀.Inv H ι A₀ R au →
    Decomp.unlimited L O cost i n limit D = .ok (st, D') →
    ∃ st₀ D₀', Decomp.unlimited L O cost i n limit D₀ = .ok (st₀, D₀') ∧ D'.Alike D₀' ∧ st.Alike st₀ := by
  intro n
  induction n with
  | zero => intro limit D D₀ st D' _ _ _ h; cases h
  | succ n ih =>
    intro limit D D₀ st D' hlim ha hinv h
    simp only [Decomp.unlimited, bindM_ok] at h
    obtain ⟨⟨st₁, D₁⟩, h1, h⟩ := h
    obtain ⟨x, hx⟩ : ∃ x, D₀.comps[i]? = some x := by
      have h1 := h1
      simp only [Decomp.decompositionStepBounded, bindM_ok] at h1
      obtain ⟨x, hx, -⟩ := h1
      rw [ha.comp] at hx
      exact ⟨x, Decomp.comp_some hx⟩
    obtain ⟨st₂, D₂, h2, h3, h4, -⟩ := decompositionStepBounded_spec hι hL hinv hx (limit := limit) (by omega)
    obtain ⟨k1, k2⟩ := ha.bounded h1 h2
    simp only [Decomp.unlimited, h2, bind, Except.bind]
    simp only at h
    by_cases hr : st₁.result = .limitReached
    · have hr' := k2.result.symm.trans hr
      rw [if_neg (by simpa using hr)] at h
      rw [if_neg (by simpa using hr')]
      obtain ⟨x', e1, e2, e3, e4, e5⟩ := h4.limit hr'
      rw [e5, Option.toList_none, List.append_nil] at h3
      have h3 : D₂.Inv H ι A₀ R au := by simpa [AutoReport, hr'] using h3
      cases cost with
      | some v => exact ih v D₁ D₂ st D' (hcost v rfl) k1 h3 h
      | none =>
        simp only at h ⊢
        by_cases hm : 2 * (limit + 1) ≤ Decomp.intMax
        · rw [if_pos hm] at h ⊢
          exact ih _ D₁ D₂ st D' (by omega) k1 h3 h
        · rw [if_neg hm] at h
          cases h
    · have hr' : st₂.result ≠ .limitReached := fun h => hr (k2.result.trans h)
      rw [if_pos hr] at h
      rw [if_pos hr']
      cases h
      exact ⟨_, _, rfl, k1, k2⟩

/-- A step that returns also returns when other connections are stored, with the same result. -/
theorem Decomp.Alike.step (hι : StrictMono ι) {L : PPL} (hL : L.Lawful) {D D₀ D' : Decomp σ T} {st : DStep} (ha : D.Alike D₀)
    (hinv : D₀.Inv H ι A₀ R au) {fuel : ℕ} {limit : ℤ} {i : ℕ} (h : D.decompositionStep L O fuel limit i = .ok (st, D')) :
    ∃ st₀ D₀', D₀.decompositionStep L O fuel limit i = .ok (st₀, D₀') ∧ D'.Alike D₀' ∧ st.Alike st₀ := by
  unfold Decomp.decompositionStep at h ⊢
  by_cases hl : limit = -1
  · rw [if_pos hl] at h ⊢
    simp only [bindM_ok] at h
    obtain ⟨x, hx, ⟨⟩, hk, ⟨cost, E⟩, hc, h⟩ := h
    rw [(LWC.opsRel O).cost _ _ _ ha.lengths] at hc
    rw [ha.comp] at hx
    have hi := Decomp.comp_some hx
    have hg := hinv.good x (List.mem_of_getElem? hi)
    have hc' := hc
    rw [boshernitzanCost_spec H hg] at hc'
    cases hc'
    simp only [hx, hk, hc, bind, Except.bind]
    refine Decomp.Alike.unlimited hι hL ?_ fuel 0
      (D.setComp i { x with iet := { x.iet with safCache := some (safList c ((LWC.lawful H).unswapped x.iet D₀.lengths)) } }) _ st D' le_rfl
      ⟨?_, ha.lengths⟩ (hinv.setCache hi) h
    · intro v hv
      split at hv
      · cases hv
      · cases hv; norm_num
    · simp only [Decomp.setComp, ha.comps]
  · rw [if_neg hl] at h ⊢
    obtain ⟨x, hx⟩ : ∃ x, D₀.comps[i]? = some x := by
      have h1 := h
      simp only [Decomp.decompositionStepBounded, bindM_ok] at h1
      obtain ⟨x, hx, -⟩ := h1
      rw [ha.comp] at hx
      exact ⟨x, Decomp.comp_some hx⟩
    obtain ⟨st₂, D₂, h2, -⟩ := decompositionStepBounded_spec hι hL hinv hx hl
    exact ⟨st₂, D₂, h2, ha.bounded h h2⟩

end

end Verif
