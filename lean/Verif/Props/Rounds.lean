import Verif.Proofs.Rounds
import Verif.Props.Complete
import Verif.ExamplesDecomp

/-!
# C43, C52: how much induction is performed
-/

namespace Verif

set_option linter.unusedSectionVars false

variable {σ T ε : Type} [CommRing T] [LinearOrder T] [IsStrictOrderedRing T] {O : LengthsOps σ T} {d : ℕ} {c : T →+ (Fin d → ℚ)}

/-! ### C52 -/

/-- **C52** When `induce(limit)` reports LIMIT_REACHED or WITHOUT_PERIODIC_TRAJECTORY_BOSHERNITZAN, then exactly `limit` rounds of Zorich induction
have been performed (none if the limit is negative), and no connection has been visible in between. -/
theorem C52_all_rounds (H : LawfulLengths O c ε) {L : PPL} (hL : L.Lawful) {w : World σ T} (h : Reachable H L w)
    {E E' : IET T} {s' : σ} {step : InductionStep T} {fuel : ℕ} {limit : ℤ} (hE : E ∈ w.pieces)
    (hr : E.induce L O fuel limit w.lengths = .ok (step, E', s'))
    (hres : step.result = .limitReached ∨ step.result = .withoutPeriodicTrajectoryBoshernitzan) :
    limit ≠ -1 ∧ Iter Round limit.toNat (H.abs E w.lengths) (H.abs E' s') ∧ ¬ (H.abs E' s').Level := by
  have hg := h.good hL hE
  have key : ∀ {E₁ : IET T}, FinishSpec H E₁ s' step E' → H.abs E₁ s' = H.abs E' s' ∧ ¬ HeadsEq (H.abs E₁ s') := by
    intro E₁ hf
    cases hf with
    | separating => rcases hres with e | e <;> cases e
    | nonSeparating => rcases hres with e | e <;> cases e
    | boshernitzan e1 e2 _ hne => exact ⟨by simp [LawfulLengths.abs, e1, e2], hne⟩
    | limit e1 e2 _ hne => exact ⟨by simp [LawfulLengths.abs, e1, e2], hne⟩
  obtain ⟨-, hg'⟩ := h.induce hL hE hr
  cases induce_rounds H hL hg hr with
  | cylinder => rcases hres with e | e <;> cases e
  | auto => rcases hres with e | e <;> cases e
  | all hl hi hf =>
    obtain ⟨e1, e2⟩ := key hf
    rw [e1] at hi e2
    exact ⟨hl, hi, by rw [H.level_iff hg'.ok]; exact e2⟩
  | found _ _ _ hf he => exact absurd he (key hf).2

/-- **C52** When `induce(limit)` reports a saddle connection, then at most `limit` rounds have been performed. Either all rounds have been performed
or the last one was stopped by a visible connection. What is left is the state `A` after the rounds in which the first interval has been
removed, or it is one of two parts of it. -/
theorem C52_connection (H : LawfulLengths O c ε) {L : PPL} (hL : L.Lawful) {w : World σ T} (h : Reachable H L w)
    {E E' : IET T} {s' : σ} {step : InductionStep T} {fuel : ℕ} {limit : ℤ} (hE : E ∈ w.pieces)
    (hr : E.induce L O fuel limit w.lengths = .ok (step, E', s'))
    (hres : step.result = .separatingConnection ∨ step.result = .nonSeparatingConnection) :
    ∃ m M A, Iter Round m (H.abs E w.lengths) M ∧
      ((limit ≠ -1 ∧ m = limit.toNat ∧ A = M) ∨ ((limit = -1 ∨ m < limit.toNat) ∧ LastRound M A)) ∧
      (step.result = .nonSeparatingConnection → MergeTop A (H.abs E' s')) ∧
      (step.result = .separatingConnection → ∃ R, step.additional = some R ∧ A.top = E'.top ++ R.top ∧ A.bottom = E'.bottom ++ R.bottom ∧ A.len = H.len s') := by
  have hg := h.good hL hE
  have key : ∀ {E₁ : IET T}, FinishSpec H E₁ s' step E' → (step.result = .nonSeparatingConnection → MergeTop (H.abs E₁ s') (H.abs E' s')) ∧
      (step.result = .separatingConnection → ∃ R, step.additional = some R ∧ (H.abs E₁ s').top = E'.top ++ R.top ∧
        (H.abs E₁ s').bottom = E'.bottom ++ R.bottom ∧ (H.abs E₁ s').len = H.len s') := by
    intro E₁ hf
    cases hf with
    | separating hcut hgR =>
      refine ⟨(fun e => by cases e), fun _ => ⟨_, rfl, ?_, ?_, rfl⟩⟩
      · have e1 := congrArg AIET.top hcut.left_eq
        have e2 := congrArg AIET.top hcut.right_eq
        simp only [LawfulLengths.abs] at e1 e2
        rw [e1, e2]
        exact (List.take_append_drop _ _).symm
      · have e1 := congrArg AIET.bottom hcut.left_eq
        have e2 := congrArg AIET.bottom hcut.right_eq
        simp only [LawfulLengths.abs] at e1 e2
        rw [e1, e2]
        exact (List.take_append_drop _ _).symm
    | nonSeparating _ _ _ _ _ hm => exact ⟨fun _ => hm, fun e => by cases e⟩
    | boshernitzan => rcases hres with e | e <;> cases e
    | limit => rcases hres with e | e <;> cases e
  cases induce_rounds H hL hg hr with
  | cylinder => rcases hres with e | e <;> cases e
  | auto => rcases hres with e | e <;> cases e
  | all hl hi hf => exact ⟨_, _, _, hi, .inl ⟨hl, rfl, rfl⟩, key hf⟩
  | @found E₁ _ _ _ m M hm hi hlast hf he =>
    refine ⟨m, M, _, hi, .inr ⟨?_, hlast⟩, key hf⟩
    by_cases hl : limit = -1
    · exact .inl hl
    · exact .inr (hm hl)

/-- **C52** When WITHOUT_PERIODIC_TRAJECTORY_AUTO_SIMILAR is reported, then fewer than `limit` rounds have been performed; CYLINDER is only reported for a
single interval and without any changes. -/
theorem C52_other (H : LawfulLengths O c ε) {L : PPL} (hL : L.Lawful) {w : World σ T} (h : Reachable H L w)
    {E E' : IET T} {s' : σ} {step : InductionStep T} {fuel : ℕ} {limit : ℤ} (hE : E ∈ w.pieces)
    (hr : E.induce L O fuel limit w.lengths = .ok (step, E', s')) :
    (step.result = .withoutPeriodicTrajectoryAutoSimilar → ∃ m, (limit = -1 ∨ m < limit.toNat) ∧ Iter Round m (H.abs E w.lengths) (H.abs E' s')) ∧
    (step.result = .cylinder → E.top.length = 1 ∧ E' = E ∧ s' = w.lengths) := by
  have hg := h.good hL hE
  have key : ∀ {E₁ : IET T}, FinishSpec H E₁ s' step E' → step.result ≠ .withoutPeriodicTrajectoryAutoSimilar ∧ step.result ≠ .cylinder := by
    intro E₁ hf
    cases hf <;> exact ⟨by simp, by simp⟩
  cases induce_rounds H hL hg hr with
  | cylinder e => exact ⟨fun h => by (exact absurd h (by simp)), fun _ => ⟨e, rfl, rfl⟩⟩
  | auto hm hi =>
    refine ⟨fun _ => ⟨_, ?_, hi⟩, fun h => by (exact absurd h (by simp))⟩
    by_cases hl : limit = -1
    · exact .inl hl
    · exact .inr (hm hl)
  | all hl hi hf => exact ⟨fun h => absurd h (key hf).1, fun h => absurd h (key hf).2⟩
  | found _ _ _ hf _ => exact ⟨fun h => absurd h (key hf).1, fun h => absurd h (key hf).2⟩

/-- **C52** The rounds are determined by the IET, so the above says what the result is. -/
theorem C52_rounds_unique {A B C : AIET T} (hA : A.Valid) : ∀ (n : ℕ), Iter Round n A B → Iter Round n A C → B = C
  | 0, h, h' => h.symm.trans h'
  | n + 1, ⟨M, h1, h2⟩, ⟨M', h1', h2'⟩ => by
    obtain rfl := h1.unique hA h1'
    exact C52_rounds_unique (h1.valid hA) n h2 h2'

/-! ### C43 -/

theorem Decomp.modify_frame {D D' : Decomp σ T} {l : Label} {f : Conns → Conns} (h : D.modify l f = .ok D') :
    D'.comps = D.comps ∧ D'.lengths.inner = D.lengths.inner := by
  simp only [Decomp.modify, bind, Except.bind, pure, Except.pure] at h
  split at h
  · cases h
  · cases h; exact ⟨rfl, rfl⟩

theorem Decomp.registerSeparating_frame {D D' : Decomp σ T} {i j : ℕ} {conn : Conn} (h : D.registerSeparating i conn j = .ok D') :
    D'.comps = D.comps ∧ D'.lengths.inner = D.lengths.inner := by
  simp only [Decomp.registerSeparating, bindM_ok] at h
  obtain ⟨_, _, _, _, _, _, _, _, D₁, h1, _, _, _, _, D₂, h2, _, _, _, _, _, _, _, _, h3⟩ := h
  cases h3
  obtain ⟨e1, e2⟩ := Decomp.modify_frame h1
  obtain ⟨f1, f2⟩ := Decomp.modify_frame h2
  exact ⟨f1.trans e1, f2.trans e2⟩

theorem Decomp.separating_frame {D D' : Decomp σ T} {i : ℕ} {b t : Label} {F : IET T} {step : DStep} (h : D.separating i b t F = .ok (step, D')) :
    D'.comps = D.comps ++ [{ iet := F }] ∧ D'.lengths.inner = D.lengths.inner ∧ step.result = .separatingConnection ∧ step.additional = some D.comps.length := by
  simp only [Decomp.separating, bindM_ok] at h
  obtain ⟨_, _, _, _, _, _, _, _, _, _, _, _, D₁, h1, h2⟩ := h
  cases h2
  obtain ⟨e1, e2⟩ := Decomp.registerSeparating_frame h1
  exact ⟨e1, e2, rfl, rfl⟩

theorem Decomp.nonSeparating_frame {D D' : Decomp σ T} {i : ℕ} {b t : Label} {step : DStep} (h : D.nonSeparating i b t = .ok (step, D')) :
    D'.comps = D.comps ∧ D'.lengths.inner = D.lengths.inner ∧ step.result = .nonSeparatingConnection ∧ step.additional = none := by
  simp only [Decomp.nonSeparating, bindM_ok] at h
  obtain ⟨_, _, _, _, _, _, _, _, _, _, _, _, _, _, _, _, D₁, h1, D₂, h2, _, _, D₃, h3, D₄, h4, _, _, _, _, h5⟩ := h
  cases h5
  obtain ⟨e1, e2⟩ := Decomp.modify_frame h1
  obtain ⟨f1, f2⟩ := Decomp.modify_frame h2
  obtain ⟨g1, g2⟩ := Decomp.modify_frame h3
  obtain ⟨k1, k2⟩ := Decomp.modify_frame h4
  exact ⟨k1.trans (g1.trans (f1.trans e1)), k2.trans (g2.trans (f2.trans e2)), rfl, rfl⟩

/-- The results of `induce` and `decompositionStep` that correspond to each other. -/
def Result.toD : Result → DResult
  | .limitReached => .limitReached
  | .cylinder => .cylinder
  | .separatingConnection => .separatingConnection
  | .nonSeparatingConnection => .nonSeparatingConnection
  | .withoutPeriodicTrajectoryBoshernitzan => .withoutPeriodicTrajectoryBoshernitzan
  | .withoutPeriodicTrajectoryAutoSimilar => .withoutPeriodicTrajectoryAutoSimilar

theorem Decomp.conclude_frame {D D' : Decomp σ T} {i : ℕ} {st : InductionStep T} {step : DStep} {y : Comp T} (h : D.conclude i st = .ok (step, D'))
    (hi : D.comps[i]? = some y) : D'.lengths.inner = D.lengths.inner ∧ step.result = st.result.toD ∧
      (∃ y', D'.comps[i]? = some y' ∧ y'.iet = y.iet) ∧
      (step.result = .separatingConnection → ∃ F, st.additional = some F ∧ D'.comps[D.comps.length]? = some { iet := F }) := by
  have hlt := (List.getElem?_eq_some_iff.mp hi).1
  obtain ⟨res, con, add⟩ := st
  simp only [Decomp.conclude, Decomp.comp_ok hi, bind, Except.bind, pure, Except.pure] at h
  split at h
  · cases h
    exact ⟨rfl, rfl, ⟨y, hi, rfl⟩, fun e => by cases e⟩
  · cases h
    exact ⟨rfl, rfl, ⟨_, List.getElem?_set_self hlt, rfl⟩, fun e => by cases e⟩
  · obtain ⟨g1, g2, g3, g4⟩ := Decomp.separating_frame h
    refine ⟨g2, g3, ⟨y, ?_, rfl⟩, fun _ => ⟨_, rfl, ?_⟩⟩
    · rw [g1, List.getElem?_append_left hlt, hi]
    · rw [g1]; simp
  · obtain ⟨g1, g2, g3, g4⟩ := Decomp.nonSeparating_frame h
    exact ⟨g2, g3, ⟨y, by rw [g1, hi], rfl⟩, fun e => by rw [g3] at e; cases e⟩
  · cases h
    exact ⟨rfl, rfl, ⟨_, List.getElem?_set_self hlt, rfl⟩, fun e => by cases e⟩
  · cases h
    exact ⟨rfl, rfl, ⟨_, List.getElem?_set_self hlt, rfl⟩, fun e => by cases e⟩
  · cases h

/-- A step with a limit is a call of `induce` with a limit that is not larger. -/
theorem decompositionStep_induce (H : LawfulLengths O c ε) {L : PPL} (hL : L.Lawful) {E : IET T} {s : σ} (hE : H.Ok E s)
    {D D' : Decomp σ T} {steps : List DStep} (h : DReach L O E s D steps) {fuel : ℕ} {limit : ℤ} (hlimit : limit ≠ -1) {i : ℕ} {step : DStep}
    (hr : D.decompositionStep L O fuel limit i = .ok (step, D')) :
    ∃ (x x' : Comp T) (k : ℤ) (ist : InductionStep T) (E₀ : IET T) (s₀ s' : LWC σ), D.comps[i]? = some x ∧ D'.comps[i]? = some x' ∧ k ≤ limit ∧ k ≠ -1 ∧
      (step.result = .limitReached → k = limit) ∧
      E₀.top = x.iet.top ∧ E₀.bottom = x.iet.bottom ∧ s₀.inner = D.lengths.inner ∧ s'.inner = D'.lengths.inner ∧
      InduceRounds (LWC.lawful H) k E₀ s₀ ist x'.iet s' ∧ (LWC.lawful H).Good x'.iet s' ∧ step.result = ist.result.toD ∧
      (step.result = .separatingConnection → ∃ F, ist.additional = some F ∧ D'.comps[D.comps.length]? = some { iet := F }) ∧ E₀.tracker = x.iet.tracker ∧ (0 < limit → 0 < k) := by
  obtain ⟨x, hi, -⟩ := h.effect hL H hE hr
  have hinv := h.inv hL H (ι := AddMonoidHom.id T) (fun _ _ h => h) hE
  have hx := List.mem_of_getElem? hi
  have hk : ¬ (x.cylinder = some true ∧ x.keane = some true) := fun h' => (hinv.flags x hx).keane h'.2
  set s : LWC σ := { D.lengths with others := D.others i } with hs
  have hg : (LWC.lawful H).Good x.iet s := LWC.good_congr (hinv.good x hx) rfl rfl rfl
  set E₀ : IET T := { x.iet with safCache := some (safList c ((LWC.lawful H).unswapped x.iet s)) } with hE₀
  have hgE : (LWC.lawful H).Good E₀ s := hg.setCache
  set cost : Option ℤ := if ∀ v ∈ safList c (H.abs x.iet s.inner), v = 0 then none else some 64 with hcost
  have hcost' : ∀ v, cost = some v → 0 < v := by
    intro v hv
    rw [hcost] at hv
    split at hv
    · cases hv
    · cases hv; norm_num
  obtain ⟨k, ist, E', s', k1, k2, k3, k4, k5, k6⟩ := chunks_induce H hL cost hcost' (limit.toNat + 1) limit E₀ s hlimit (Nat.lt_succ_self _) hgE
  have hset : (D.comps.set i ({ x with iet := E' } : Comp T))[i]? = some { x with iet := E' } := by
    rw [List.getElem?_set_self (List.getElem?_eq_some_iff.mp hi).1]
  have hrun : D.decompositionStep L O fuel limit i =
      Decomp.conclude { comps := D.comps.set i { x with iet := E' }, lengths := s' } i ist := by
    unfold Decomp.decompositionStep
    rw [if_neg hlimit]
    unfold Decomp.decompositionStepBounded
    simp only [Decomp.comp_ok hi, assertM, bind, Except.bind]
    rw [if_pos (decide_eq_true hk)]
    simp only
    rw [boshernitzanCost_spec H hg]
    simp only
    rw [k4]
    rfl
  rw [hrun] at hr
  obtain ⟨c1, c2, ⟨y', c3, c4⟩, c5⟩ := Decomp.conclude_frame hr hset
  have hR := induce_rounds (LWC.lawful H) hL hgE k5
  have hG : (LWC.lawful H).Good E' s' := by
    rcases induce_spec (LWC.lawful H) hL 0 k E₀ s hgE with ⟨q1, _⟩ | ⟨_, _, _, q1, _, q2, _⟩
    · rw [q1] at k5; cases k5
    · rw [q1] at k5; cases k5; exact q2
  refine ⟨x, y', k, ist, E₀, s, s', hi, c3, k1, k2, ?_, rfl, rfl, rfl, c1.symm, by rw [c4]; exact hR, by rw [c4]; exact hG, c2, ?_, rfl, k3.2⟩
  · intro e
    refine k6 ?_
    rw [c2] at e
    cases hres : ist.result <;> rw [hres] at e <;> first | rfl | cases e
  · intro e
    obtain ⟨F, f1, f2⟩ := c5 e
    exact ⟨F, f1, by simpa using f2⟩

/-- **C43** When `decompositionStep(limit)` reports LIMIT_REACHED then exactly `limit` rounds of Zorich induction have been performed on the
component. -/
theorem C43_limitReached (H : LawfulLengths O c ε) {L : PPL} (hL : L.Lawful) {E : IET T} {s : σ} (hE : H.Ok E s)
    {D D' : Decomp σ T} {steps : List DStep} (h : DReach L O E s D steps) {fuel : ℕ} {limit : ℤ} {i : ℕ} {step : DStep}
    (hr : D.decompositionStep L O fuel limit i = .ok (step, D')) (hres : step.result = .limitReached) :
    limit ≠ -1 ∧ ∃ x x', D.comps[i]? = some x ∧ D'.comps[i]? = some x' ∧
      Iter Round limit.toNat (H.abs x.iet D.lengths.inner) (H.abs x'.iet D'.lengths.inner) := by
  have hlimit : limit ≠ -1 := by
    obtain ⟨_, _, _, hl, _⟩ := h.effect hL H hE hr
    exact fun e => hl e hres
  refine ⟨hlimit, ?_⟩
  obtain ⟨x, x', k, ist, E₀, s₀, s', h1, h2, h3, h4, h5, h6, h7, h8, h9, h10, h11, h12, h13, -⟩ := decompositionStep_induce H hL hE h hlimit hr
  obtain rfl := h5 hres
  refine ⟨x, x', h1, h2, ?_⟩
  have hi : ist.result = .limitReached := by
    rw [h12] at hres
    cases hist : ist.result <;> rw [hist] at hres <;> first | rfl | cases hres
  have ea : H.abs x.iet D.lengths.inner = (LWC.lawful H).abs E₀ s₀ := by
    simp only [LawfulLengths.abs, ← h6, ← h7, ← h8]; rfl
  have eb : H.abs x'.iet D'.lengths.inner = (LWC.lawful H).abs x'.iet s' := by
    simp only [LawfulLengths.abs, ← h9]; rfl
  rw [ea, eb]
  generalize hE' : x'.iet = E' at h10
  cases h10 with
  | cylinder => cases hi
  | auto => cases hi
  | @all E₁ _ _ _ hl hit hf =>
    cases hf with
    | separating => cases hi
    | nonSeparating => cases hi
    | boshernitzan => cases hi
    | limit e1 e2 _ hne =>
      have : (LWC.lawful H).abs E₁ s' = (LWC.lawful H).abs E' s' := by simp [LawfulLengths.abs, e1, e2]
      rwa [this] at hit
  | found _ _ _ hf he =>
    cases hf with
    | separating => cases hi
    | nonSeparating => cases hi
    | boshernitzan => cases hi
    | limit e1 e2 _ hne => exact absurd he hne

/-- **C43** Whatever `decompositionStep(limit)` reports, at most `limit` rounds of Zorich induction have been performed on the
component (the last of them is not complete when a connection has shown up), possibly followed by the removal of a connection. -/
theorem C43_atMost (H : LawfulLengths O c ε) {L : PPL} (hL : L.Lawful) {E : IET T} {s : σ} (hE : H.Ok E s)
    {D D' : Decomp σ T} {steps : List DStep} (h : DReach L O E s D steps) {fuel : ℕ} {limit : ℤ} (hlimit : limit ≠ -1) {i : ℕ} {step : DStep}
    (hr : D.decompositionStep L O fuel limit i = .ok (step, D')) :
    ∃ x x' m M A, D.comps[i]? = some x ∧ D'.comps[i]? = some x' ∧ Iter Round m (H.abs x.iet D.lengths.inner) M ∧
      ((m ≤ limit.toNat ∧ A = M) ∨ (m < limit.toNat ∧ LastRound M A)) ∧
      (step.result ≠ .nonSeparatingConnection → step.result ≠ .separatingConnection → A = M ∧ A = H.abs x'.iet D'.lengths.inner) ∧
      (step.result = .nonSeparatingConnection → MergeTop A (H.abs x'.iet D'.lengths.inner)) ∧
      (step.result = .separatingConnection → ∃ y, D'.comps[D.comps.length]? = some y ∧
        A = ⟨x'.iet.top ++ y.iet.top, x'.iet.bottom ++ y.iet.bottom, H.len D'.lengths.inner⟩) := by
  obtain ⟨x, x', k, ist, E₀, s₀, s', h1, h2, h3, h4, h5, h6, h7, h8, h9, h10, h11, h12, h13, -⟩ := decompositionStep_induce H hL hE h hlimit hr
  have ea : H.abs x.iet D.lengths.inner = (LWC.lawful H).abs E₀ s₀ := by
    simp only [LawfulLengths.abs, ← h6, ← h7, ← h8]; rfl
  have eb : H.abs x'.iet D'.lengths.inner = (LWC.lawful H).abs x'.iet s' := by
    simp only [LawfulLengths.abs, ← h9]; rfl
  have ec : H.len D'.lengths.inner = (LWC.lawful H).len s' := by rw [← h9]; rfl
  have key : ∀ {E₁ : IET T} {M : AIET T}, FinishSpec (LWC.lawful H) E₁ s' ist x'.iet →
      ((LWC.lawful H).abs E₁ s' = M ∨ HeadsEq ((LWC.lawful H).abs E₁ s')) →
      (step.result ≠ .nonSeparatingConnection → step.result ≠ .separatingConnection →
        (LWC.lawful H).abs E₁ s' = M ∧ (LWC.lawful H).abs E₁ s' = H.abs x'.iet D'.lengths.inner) ∧
      (step.result = .nonSeparatingConnection → MergeTop ((LWC.lawful H).abs E₁ s') (H.abs x'.iet D'.lengths.inner)) ∧
      (step.result = .separatingConnection → ∃ y, D'.comps[D.comps.length]? = some y ∧
        (LWC.lawful H).abs E₁ s' = ⟨x'.iet.top ++ y.iet.top, x'.iet.bottom ++ y.iet.bottom, H.len D'.lengths.inner⟩) := by
    intro E₁ M hf hM
    rw [eb]
    generalize x'.iet = E' at hf ⊢
    cases hf with
    | @separating R F j b t hcut hgR =>
      refine ⟨fun _ e => absurd h12 e, (fun e => by rw [h12] at e; cases e), fun e => ?_⟩
      obtain ⟨F', f1, f2⟩ := h13 e
      cases f1
      refine ⟨_, f2, ?_⟩
      have e1 := congrArg AIET.top hcut.left_eq
      have e2 := congrArg AIET.top hcut.right_eq
      have e3 := congrArg AIET.bottom hcut.left_eq
      have e4 := congrArg AIET.bottom hcut.right_eq
      simp only [LawfulLengths.abs] at e1 e2 e3 e4
      simp only [e1, e2, e3, e4, List.take_append_drop, ec]
      rfl
    | nonSeparating _ _ _ _ _ hm =>
      exact ⟨fun e => absurd h12 e, fun _ => hm, (fun e => by rw [h12] at e; cases e)⟩
    | boshernitzan e1 e2 _ hne =>
      refine ⟨fun _ _ => ⟨hM.resolve_right hne, by simp [LawfulLengths.abs, e1, e2]⟩, (fun e => by rw [h12] at e; cases e), (fun e => by rw [h12] at e; cases e)⟩
    | limit e1 e2 _ hne =>
      refine ⟨fun _ _ => ⟨hM.resolve_right hne, by simp [LawfulLengths.abs, e1, e2]⟩, (fun e => by rw [h12] at e; cases e), (fun e => by rw [h12] at e; cases e)⟩
  refine ⟨x, x', ?_⟩
  rw [ea]
  generalize hE' : x'.iet = E' at h10
  cases h10 with
  | cylinder e =>
    refine ⟨0, _, _, h1, h2, rfl, .inl ⟨by omega, rfl⟩, fun _ _ => ⟨rfl, ?_⟩, (fun e => by rw [h12] at e; cases e), (fun e => by rw [h12] at e; cases e)⟩
    rw [hE'] at eb; exact eb.symm
  | @auto _ _ m hm hi =>
    have := hm h4
    refine ⟨m, _, _, h1, h2, hi, .inl ⟨by omega, rfl⟩, fun _ _ => ⟨rfl, ?_⟩, (fun e => by rw [h12] at e; cases e), (fun e => by rw [h12] at e; cases e)⟩
    rw [hE'] at eb; exact eb.symm
  | all hl hi hf =>
    subst hE'
    exact ⟨_, _, _, h1, h2, hi, .inl ⟨by omega, rfl⟩, key hf (.inl rfl)⟩
  | found hm hi hlast hf he =>
    subst hE'
    have := hm h4
    exact ⟨_, _, _, h1, h2, hi, .inr ⟨by omega, hlast⟩, key hf (.inr he)⟩

/-- **C43** Without a limit, `decompositionStep(-1)` never reports LIMIT_REACHED. -/
theorem C43_unlimited (H : LawfulLengths O c ε) {L : PPL} (hL : L.Lawful) {E : IET T} {s : σ} (hE : H.Ok E s)
    {D D' : Decomp σ T} {steps : List DStep} (h : DReach L O E s D steps) {fuel : ℕ} {i : ℕ} {step : DStep}
    (hr : D.decompositionStep L O fuel (-1) i = .ok (step, D')) : step.result ≠ .limitReached := by
  obtain ⟨_, _, _, hl, _⟩ := h.effect hL H hE hr
  exact hl rfl

/-- The first round of the induction of the sample IET is complete; in the second round a connection shows up. -/
example (L : PPL) : ((Examples.intIET.induce L (SLengths.ops intArith) 0 1 Examples.intState).toOption.map (fun r => r.1.result)) = some .limitReached ∧
    ((Examples.intIET.induce L (SLengths.ops intArith) 0 2 Examples.intState).toOption.map (fun r => r.1.result)) = some .nonSeparatingConnection ∧
    ((Decomp.runFrom L (SLengths.ops intArith) Examples.intIET Examples.intState 20 [(1, 0), (1, 0)]).toOption.map (fun r => r.1.map DStep.result)) =
      some [.limitReached, .nonSeparatingConnection] := ⟨rfl, rfl, rfl⟩

end Verif
