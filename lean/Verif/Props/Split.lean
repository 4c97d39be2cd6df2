import Verif.Props.Induce

/-!
# C17: the limit of `induce` can be split
-/

namespace Verif

set_option linter.unusedSectionVars false

variable {σ T : Type} [CommRing T] [LinearOrder T] {O : LengthsOps σ T}

theorem saf_ok {E E' : IET T} {s : σ} {v : List ℚ} (h : E.saf O s = .ok (v, E')) :
    E' = { E with safCache := some v } := by
  unfold IET.saf at h
  cases hc : E.safCache with
  | some w =>
    rw [hc] at h
    cases h
    cases E
    simp_all
  | none =>
    rw [hc] at h
    cases hr : E.rawSaf O s with
    | error e => simp [hr, bind, Except.bind] at h
    | ok w =>
      simp only [hr, bind, Except.bind, pure, Except.pure, Except.ok.injEq, Prod.mk.injEq] at h
      obtain ⟨rfl, rfl⟩ := h
      rfl

theorem saf_cached {E : IET T} {v : List ℚ} (h : E.safCache = some v) (s : σ) : E.saf O s = .ok (v, E) := by
  unfold IET.saf; rw [h]

theorem saf0_cached {E : IET T} {v : List ℚ} (h : E.safCache = some v) (s : σ) :
    E.saf0 O s = .ok (v.all (fun c => c = 0), E) := by
  unfold IET.saf0; rw [saf_cached h]; rfl

theorem saf0_ok {E E' : IET T} {s : σ} {z : Bool} (h : E.saf0 O s = .ok (z, E')) :
    ∃ v, E.saf O s = .ok (v, E') ∧ E' = { E with safCache := some v } ∧ z = v.all (fun c => c = 0) := by
  unfold IET.saf0 at h
  cases hr : E.saf O s with
  | error e => simp [hr, bind, Except.bind] at h
  | ok p =>
    obtain ⟨v, E₁⟩ := p
    simp only [hr, bind, Except.bind, pure, Except.pure, Except.ok.injEq, Prod.mk.injEq] at h
    obtain ⟨rfl, rfl⟩ := h
    exact ⟨v, rfl, saf_ok hr, rfl⟩

theorem trackerLoop_cache {E E' : IET T} {s : σ} {r : Bool} (h : E.trackerLoop O s = .ok (r, E')) : E'.safCache = E.safCache := by
  unfold IET.trackerLoop at h
  split at h
  · cases hr : E.trackerReset O s with
    | error e => simp [hr, bind, Except.bind] at h
    | ok t =>
      simp only [hr, bind, Except.bind, pure, Except.pure, Except.ok.injEq, Prod.mk.injEq] at h
      rw [← h.2]
  · simp only at h
    split at h
    · simp only [pure, Except.pure, Except.ok.injEq, Prod.mk.injEq] at h
      rw [← h.2]
    · simp only [bind, Except.bind] at h
      split at h
      · cases h
      · split at h
        · simp only [pure, Except.pure, Except.ok.injEq, Prod.mk.injEq] at h
          rw [← h.2]
        · split at h
          · cases h
          · simp only [pure, Except.pure, Except.ok.injEq, Prod.mk.injEq] at h
            rw [← h.2]

theorem trackStep_cache {E E' : IET T} {s : σ} {z r : Bool} {v : List ℚ} (hv : E.safCache = some v)
    (h : E.trackStep O z s = .ok (r, E')) : E'.safCache = some v := by
  unfold IET.trackStep at h
  split at h
  · rw [saf_cached hv] at h
    simp only [bind, Except.bind] at h
    split at h
    · simp only [pure, Except.pure, Except.ok.injEq, Prod.mk.injEq] at h
      rw [← h.2, hv]
    · rw [trackerLoop_cache h, hv]
  · simp only [Except.ok.injEq, Prod.mk.injEq] at h
    rw [← h.2, hv]

theorem zorich_cache {E E' : IET T} {s s' : σ} {r : Bool} (h : E.zorichInduction O s = .ok (r, E', s')) :
    E'.safCache = E.safCache := by
  unfold IET.zorichInduction at h
  split at h
  · split at h
    · simp only [Except.ok.injEq, Prod.mk.injEq] at h
      rw [← h.2.1]
    · simp only [bind, Except.bind] at h
      split at h
      · cases h
      · split at h
        · cases h
        · split at h
          · cases h
          · split at h
            · cases h
            · simp only [pure, Except.pure, Except.ok.injEq, Prod.mk.injEq] at h
              rw [← h.2.1]
  · cases h

/-- The loop keeps the cache. -/
theorem induceLoop_cache {v : List ℚ} (z : Bool) : ∀ (n : ℕ) {E E' : IET T} {s s' : σ} {e : IET.LoopEnd}, E.safCache = some v →
    IET.induceLoop O z n E s = .ok (e, E', s') → E'.safCache = some v := by
  intro n
  induction n with
  | zero => intro E E' s s' e hv h; cases h; exact hv
  | succ n ih =>
    intro E E' s s' e hv h
    simp only [IET.induceLoop, bind, Except.bind] at h
    split at h
    · cases h
    · rename_i x hx
      obtain ⟨r, E₁⟩ := x
      have h1 := trackStep_cache hv hx
      simp only at h
      split at h
      · simp only [pure, Except.pure, Except.ok.injEq, Prod.mk.injEq] at h
        rw [← h.2.1, h1]
      · split at h
        · cases h
        · rename_i x hx
          obtain ⟨r2, E₂, s₂⟩ := x
          have h2 := (zorich_cache hx).trans h1
          simp only at h
          split at h
          · simp only [pure, Except.pure, Except.ok.injEq, Prod.mk.injEq] at h
            rw [← h.2.1, h2]
          · split at h
            · cases h
            · rename_i x hx
              obtain ⟨r3, E₃, s₃⟩ := x
              have h3 : E₃.swap.safCache = some v := (zorich_cache hx).trans h2
              simp only at h
              split at h
              · simp only [pure, Except.pure, Except.ok.injEq, Prod.mk.injEq] at h
                rw [← h.2.1, h3]
              · exact ih h3 h

/-- The loop can be interrupted. -/
theorem induceLoop_add (z : Bool) (m : ℕ) : ∀ (n : ℕ) {E E' : IET T} {s s' : σ},
    IET.induceLoop O z n E s = .ok (.exhausted, E', s') → IET.induceLoop O z (n + m) E s = IET.induceLoop O z m E' s' := by
  intro n
  induction n with
  | zero => intro E E' s s' h; cases h; rw [Nat.zero_add]
  | succ n ih =>
    intro E E' s s' h
    rw [show n + 1 + m = (n + m) + 1 by omega]
    simp only [IET.induceLoop, bind, Except.bind] at h ⊢
    split at h
    · cases h
    · rename_i x hx
      obtain ⟨r, E₁⟩ := x
      try rw [hx]
      simp only at h ⊢
      split at h
      · simp [pure, Except.pure] at h
      · rename_i hr
        rw [if_neg hr]
        split at h
        · cases h
        · rename_i x hx
          obtain ⟨r2, E₂, s₂⟩ := x
          try rw [hx]
          simp only at h ⊢
          split at h
          · simp [pure, Except.pure] at h
          · rename_i hr
            rw [if_neg hr]
            split at h
            · cases h
            · rename_i x hx
              obtain ⟨r3, E₃, s₃⟩ := x
              try rw [hx]
              simp only at h ⊢
              split at h
              · simp [pure, Except.pure] at h
              · rename_i hr
                rw [if_neg hr]
                exact ih h

theorem reduce_none {E E' : IET T} {s : σ} (h : E.reduce O s = .ok (none, E')) : E' = E ∧
    ∀ F : IET T, F.top = E.top → F.bottom = E.bottom → F.reduce O s = .ok (none, F) := by
  unfold IET.reduce at h
  cases hk : IET.reduceLoop E.top E.bottom [] 0 0 0 with
  | error e => simp [hk, bind, Except.bind] at h
  | ok k =>
    simp only [hk, bind, Except.bind] at h
    split at h
    · rename_i he
      cases ha : assertM (k = E.bottom.length) with
      | error e => simp [ha] at h
      | ok u =>
        simp only [ha, pure, Except.pure, Except.ok.injEq, Prod.mk.injEq, true_and] at h
        refine ⟨h.symm, ?_⟩
        intro F h1 h2
        unfold IET.reduce
        rw [h1, h2]
        simp only [hk, bind, Except.bind]
        rw [if_pos he, ha]
        rfl
    · exfalso
      cases ha : assertM ((E.top.take k).length = (E.bottom.take k).length) with
      | error e => simp only [ha] at h; cases h
      | ok u =>
        simp only [ha] at h
        cases hm : IET.mk? O (E.top.drop k) (E.bottom.drop k) s with
        | error e => simp [hm] at h
        | ok r => simp [hm, pure, Except.pure] at h

theorem reduce_some {E E' R : IET T} {s : σ} (h : E.reduce O s = .ok (some R, E')) (v : Option (List ℚ)) :
    IET.reduce O { E with safCache := v } s = .ok (some R, E') := by
  unfold IET.reduce at h ⊢
  cases hk : IET.reduceLoop E.top E.bottom [] 0 0 0 with
  | error e => simp [hk, bind, Except.bind] at h
  | ok k =>
    simp only [hk, bind, Except.bind] at h ⊢
    by_cases he : k = E.top.length
    · rw [if_pos he] at h
      cases ha : assertM (k = E.bottom.length) with
      | error e => simp [ha] at h
      | ok u => simp [ha, pure, Except.pure] at h
    · rw [if_neg he] at h
      rw [if_neg he]
      exact h

theorem bosh_ok {L : PPL} {E E' : IET T} {s : σ} {b : Bool} (h : E.boshernitzanNoPeriodicTrajectory L O s = .ok (b, E')) :
    ∃ v, E.saf O s = .ok (v, E') ∧ E' = { E with safCache := some v } ∧ E'.boshernitzanNoPeriodicTrajectory L O s = .ok (b, E') := by
  unfold IET.boshernitzanNoPeriodicTrajectory at h
  cases hr : E.saf0 O s with
  | error e => simp [hr, bind, Except.bind] at h
  | ok p =>
    obtain ⟨z, E₁⟩ := p
    obtain ⟨v, h1, h2, h3⟩ := saf0_ok hr
    have h4 : E₁.safCache = some v := by rw [h2]
    have h5 : E₁.saf0 O s = .ok (z, E₁) := by rw [saf0_cached h4, h3]
    have h6 : E₁.boshernitzanNoPeriodicTrajectory L O s = E.boshernitzanNoPeriodicTrajectory L O s := by
      unfold IET.boshernitzanNoPeriodicTrajectory
      rw [hr, h5]
    simp only [hr, bind, Except.bind] at h
    have h7 : E' = E₁ := by
      split at h
      · simp only [pure, Except.pure, Except.ok.injEq, Prod.mk.injEq] at h; exact h.2.symm
      · split at h
        · simp only [pure, Except.pure, Except.ok.injEq, Prod.mk.injEq] at h; exact h.2.symm
        · split at h
          · cases h
          · split at h
            · cases h
            · split at h
              · cases h
              · simp only [pure, Except.pure, Except.ok.injEq, Prod.mk.injEq] at h; exact h.2.symm
    subst h7
    refine ⟨v, h1, h2, ?_⟩
    rw [h6]
    unfold IET.boshernitzanNoPeriodicTrajectory
    simp only [hr, bind, Except.bind]
    exact h

/-- When the last phase reports LIMIT_REACHED then it only fills the cache and repeating it changes nothing. -/
theorem induceFinish_limit {L : PPL} {E E' : IET T} {s : σ} {found : Bool} {step : InductionStep T}
    (h : E.induceFinish L O found s = .ok (step, E')) (hs : step.result = .limitReached) :
    found = false ∧ (∃ v, E.saf O s = .ok (v, E') ∧ E' = { E with safCache := some v }) ∧
      E'.induceFinish L O false s = .ok (step, E') := by
  unfold IET.induceFinish at h
  cases hr : E.reduce O s with
  | error e => simp [hr, bind, Except.bind] at h
  | ok p =>
    obtain ⟨right, E₁⟩ := p
    simp only [hr, bind, Except.bind] at h
    cases right with
    | some R =>
      simp only at h
      split at h
      · simp only [pure, Except.pure, Except.ok.injEq, Prod.mk.injEq] at h
        rw [← h.1] at hs; cases hs
      · cases h
    | none =>
      obtain ⟨rfl, hF⟩ := reduce_none hr
      simp only at h
      split at h
      · rename_i t top b bottom htop hbot
        split at h
        · cases h
        · rename_i c hc
          split at h
          · simp only [pure, Except.pure, Except.ok.injEq, Prod.mk.injEq] at h
            rw [← h.1] at hs; cases hs
          · rename_i h0
            cases found with
            | true => simp [assertM] at h
            | false =>
              simp only [assertM, Bool.not_false, if_true] at h
              cases hb : E₁.boshernitzanNoPeriodicTrajectory L O s with
              | error e => simp [hb] at h
              | ok q =>
                obtain ⟨b', E₂⟩ := q
                simp only [hb] at h
                cases b' with
                | true =>
                  simp only [if_true, pure, Except.pure, Except.ok.injEq, Prod.mk.injEq] at h
                  rw [← h.1] at hs; cases hs
                | false =>
                  simp only [Bool.false_eq_true, if_false, pure, Except.pure, Except.ok.injEq, Prod.mk.injEq] at h
                  obtain ⟨rfl, rfl⟩ := h
                  obtain ⟨v, g1, g2, g3⟩ := bosh_ok hb
                  refine ⟨rfl, ⟨v, g1, g2⟩, ?_⟩
                  have e1 : E₂.top = E₁.top := by rw [g2]
                  have e2 : E₂.bottom = E₁.bottom := by rw [g2]
                  unfold IET.induceFinish
                  simp only [hF E₂ e1 e2, bind, Except.bind]
                  rw [e1, e2, htop, hbot]
                  simp only [hc, h0, if_false, assertM, Bool.not_false, if_true, g3, Bool.false_eq_true, pure, Except.pure]
      · cases h

/-- The size of the IET does not change in the loop. -/
theorem inducePhase_limit {n : ℕ} {E E' : IET T} {s s' : σ} {fuel : ℕ} {e : IET.LoopEnd}
    (h : E.inducePhase O fuel n s = .ok (e, E', s')) :
    (n = 0 ∧ e = .exhausted ∧ E' = E ∧ s' = s) ∨ ∃ v E₁, E.saf O s = .ok (v, E₁) ∧ E₁.safCache = some v ∧
      IET.induceLoop O (v.all (fun c => c = 0)) n E₁ s = .ok (e, E', s') := by
  unfold IET.inducePhase at h
  by_cases hn : (n : ℤ) = 0
  · rw [if_pos hn] at h
    cases h
    exact .inl ⟨by omega, rfl, rfl, rfl⟩
  · rw [if_neg hn] at h
    right
    cases hr : E.saf0 O s with
    | error e => simp [hr, bind, Except.bind] at h
    | ok p =>
      obtain ⟨z, E₁⟩ := p
      simp only [hr, bind, Except.bind] at h
      rw [if_neg (by omega)] at h
      obtain ⟨v, h1, h2, rfl⟩ := saf0_ok hr
      exact ⟨v, E₁, h1, by rw [h2], by simpa using h⟩

/-- The structure of a call of `induce` that ends with LIMIT_REACHED. -/
theorem induce_limit_structure {L : PPL} {E E' : IET T} {s s' : σ} {fuel : ℕ} {n : ℕ} {step : InductionStep T}
    (h : E.induce L O fuel n s = .ok (step, E', s')) (hs : step.result = .limitReached) :
    E.size ≠ 1 ∧ ∃ v E₁, E.saf O s = .ok (v, E₁) ∧ E₁.safCache = some v ∧ E'.safCache = some v ∧
      IET.induceLoop O (v.all (fun c => c = 0)) n E₁ s = .ok (.exhausted, E', s') ∧
      E'.induceFinish L O false s' = .ok (step, E') := by
  unfold IET.induce at h
  by_cases h1 : E.size = 1
  · simp only [h1, if_true, pure, Except.pure, Except.ok.injEq, Prod.mk.injEq] at h
    rw [← h.1] at hs; cases hs
  · refine ⟨h1, ?_⟩
    rw [if_neg h1] at h
    cases hp : E.inducePhase O fuel n s with
    | error e => simp [hp, bind, Except.bind] at h
    | ok p =>
      obtain ⟨e, E₂, s₂⟩ := p
      simp only [hp, bind, Except.bind] at h
      split at h
      · simp only [pure, Except.pure, Except.ok.injEq, Prod.mk.injEq] at h
        rw [← h.1] at hs; cases hs
      · rename_i hauto
        cases hf : E₂.induceFinish L O (decide (e = .found)) s₂ with
        | error e => simp [hf] at h
        | ok q =>
          obtain ⟨st, E₃⟩ := q
          simp only [hf, pure, Except.pure, Except.ok.injEq, Prod.mk.injEq] at h
          obtain ⟨rfl, rfl, rfl⟩ := h
          obtain ⟨g1, ⟨v, g2, g3⟩, g4⟩ := induceFinish_limit hf hs
          have he : e = .exhausted := by
            cases e with
            | exhausted => rfl
            | found => simp at g1
            | autoSimilar => exact absurd rfl hauto
          subst he
          rcases inducePhase_limit hp with ⟨rfl, _, rfl, rfl⟩ | ⟨w, E₁, q1, q2, q3⟩
          · exact ⟨v, E₃, g2, by rw [g3], by rw [g3], rfl, g4⟩
          · have q4 := induceLoop_cache _ _ q2 q3
            have q5 := saf_cached (O := O) q4 s₂
            rw [q5] at g2
            cases g2
            exact ⟨v, E₁, q1, q2, q4, q3, g4⟩

/-- Rewriting a call of `induce` for an IET with known invariant. -/
theorem induce_unfold (L : PPL) {E E₁ : IET T} {s : σ} {v : List ℚ} (h1 : E.saf O s = .ok (v, E₁)) (hs : E.size ≠ 1)
    (fuel : ℕ) {n : ℕ} (hn : n ≠ 0) : E.induce L O fuel n s =
      (do let (e, E₂, s₂) ← IET.induceLoop O (v.all (fun c => c = 0)) n E₁ s
          if e = .autoSimilar then return ({ result := .withoutPeriodicTrajectoryAutoSimilar }, E₂, s₂)
          else
            let (step, E₂) ← E₂.induceFinish L O (e = .found) s₂
            return (step, E₂, s₂)) := by
  have h0 : E.saf0 O s = .ok (v.all (fun c => c = 0), E₁) := by unfold IET.saf0; rw [h1]; rfl
  unfold IET.induce
  rw [if_neg hs]
  unfold IET.inducePhase
  rw [if_neg (by omega), h0]
  simp only [bind, Except.bind]
  rw [if_neg (by omega)]
  rfl

theorem induce_unfold_unlimited (L : PPL) {E E₁ : IET T} {s : σ} {v : List ℚ} (h1 : E.saf O s = .ok (v, E₁)) (hs : E.size ≠ 1)
    (fuel : ℕ) : E.induce L O fuel (-1) s =
      (do let (e, E₂, s₂) ← IET.induceLoop O (v.all (fun c => c = 0)) fuel E₁ s
          if e = .exhausted then .error .fuel
          else if e = .autoSimilar then return ({ result := .withoutPeriodicTrajectoryAutoSimilar }, E₂, s₂)
          else
            let (step, E₂) ← E₂.induceFinish L O (e = .found) s₂
            return (step, E₂, s₂)) := by
  have h0 : E.saf0 O s = .ok (v.all (fun c => c = 0), E₁) := by unfold IET.saf0; rw [h1]; rfl
  unfold IET.induce
  rw [if_neg hs]
  unfold IET.inducePhase
  rw [if_neg (by omega), h0]
  simp only [bind, Except.bind, if_true]
  cases IET.induceLoop O (v.all (fun c => c = 0)) fuel E₁ s with
  | error e => rfl
  | ok p =>
    obtain ⟨e, E₂, s₂⟩ := p
    simp only
    by_cases he : e = .exhausted
    · rw [if_pos he, if_pos he]
    · rw [if_neg he, if_neg he]; rfl

theorem split_aux (L : PPL) {E E' : IET T} {s s' : σ} {fuel : ℕ} {n m : ℕ} {step : InductionStep T}
    (h : E.induce L O fuel n s = .ok (step, E', s')) (hs : step.result = .limitReached) (hsize : E'.size = E.size) :
    E'.induce L O fuel m s' = E.induce L O fuel (n + m : ℕ) s := by
  obtain ⟨h1, v, E₁, h2, h3, h4, h5, h6⟩ := induce_limit_structure h hs
  by_cases hm : m = 0
  · subst hm
    rw [Nat.add_zero, h]
    unfold IET.induce
    rw [if_neg (by omega)]
    unfold IET.inducePhase
    rw [if_pos (by rfl)]
    simp only [bind, Except.bind]
    rw [if_neg (by simp)]
    simp only [reduceCtorEq, decide_false, h6, pure, Except.pure]
  · rw [induce_unfold L h2 h1 fuel (n := n + m) (by omega), induce_unfold L (saf_cached h4 s') (by omega) fuel hm,
      induceLoop_add _ m n h5]

section reachable

variable {ε : Type} [IsStrictOrderedRing T] {d : ℕ} {c : T →+ (Fin d → ℚ)}

/-- **C17** If `induce(n)` reports LIMIT_REACHED then a following `induce(m)` gives the same as `induce(n + m)` on the
original: the same result, the same IET (including its caches) and the same lengths. -/
theorem C17_split (H : LawfulLengths O c ε) {L : PPL} (hL : L.Lawful) {w : World σ T} (h : Reachable H L w)
    {E E' : IET T} {s' : σ} {step : InductionStep T} {fuel n : ℕ} (m : ℕ) (hE : E ∈ w.pieces)
    (hr : E.induce L O fuel n w.lengths = .ok (step, E', s')) (hres : step.result = .limitReached) :
    E'.induce L O fuel m s' = E.induce L O fuel (n + m : ℕ) w.lengths := by
  obtain ⟨_, _, _, _, _, hp, _⟩ := C14_limitReached H hL h hE hr hres (ι := AddMonoidHom.id T) (fun _ _ h => h)
  exact split_aux L hr hres hp.length_eq

/-- **C17** The same for unlimited induction. -/
theorem C17_split_unlimited (H : LawfulLengths O c ε) {L : PPL} (hL : L.Lawful) {w : World σ T} (h : Reachable H L w)
    {E E' : IET T} {s' : σ} {step : InductionStep T} {fuel n : ℕ} (hE : E ∈ w.pieces)
    (hr : E.induce L O fuel n w.lengths = .ok (step, E', s')) (hres : step.result = .limitReached) (fuel' : ℕ) :
    E'.induce L O fuel' (-1) s' = E.induce L O (n + fuel') (-1) w.lengths := by
  obtain ⟨_, _, _, _, _, hp, _⟩ := C14_limitReached H hL h hE hr hres (ι := AddMonoidHom.id T) (fun _ _ h => h)
  have hsize : E'.size = E.size := hp.length_eq
  obtain ⟨h1, v, E₁, h2, h3, h4, h5, h6⟩ := induce_limit_structure hr hres
  rw [induce_unfold_unlimited L h2 h1, induce_unfold_unlimited L (saf_cached h4 s') (by omega) fuel',
    induceLoop_add _ fuel' n h5]

/-- **C16** A negative limit other than -1 gives the same result as the limit 0. -/
theorem C16_negative_limit (H : LawfulLengths O c ε) {L : PPL} (hL : L.Lawful) {w : World σ T} (h : Reachable H L w)
    {E : IET T} {fuel : ℕ} {limit : ℤ} (hE : E ∈ w.pieces) (hlimit : limit < 0 ∧ limit ≠ -1) :
    ∃ step E₁ E₂, E.induce L O fuel 0 w.lengths = .ok (step, E₁, w.lengths) ∧
      E.induce L O fuel limit w.lengths = .ok (step, E₂, w.lengths) ∧ E₁.top = E₂.top ∧ E₁.bottom = E₂.bottom ∧
      E₁.swapped = E₂.swapped ∧ E₁.tracker = E₂.tracker := by
  have hg := h.good hL hE
  by_cases h1 : E.size = 1
  · exact ⟨_, _, _, C11_cylinder_returns L h1 fuel 0, C11_cylinder_returns L h1 fuel limit, rfl, rfl, rfl, rfl⟩
  · have hs := saf0_spec H hg.ok hg.cache
    have p1 : E.inducePhase O fuel 0 w.lengths = .ok (.exhausted, E, w.lengths) := by
      unfold IET.inducePhase; rw [if_pos rfl]
    have p2 : E.inducePhase O fuel limit w.lengths =
        .ok (.exhausted, { E with safCache := some (safList c (H.unswapped E w.lengths)) }, w.lengths) := by
      unfold IET.inducePhase
      rw [if_neg (by omega), hs]
      simp only [bind, Except.bind]
      rw [if_neg (by omega), show limit.toNat = 0 by omega]
      rfl
    have e1 : E.induce L O fuel 0 w.lengths = (do
        let (step, E) ← E.induceFinish L O false w.lengths
        return (step, E, w.lengths)) := by
      unfold IET.induce
      rw [if_neg h1, p1]
      rfl
    have e2 : E.induce L O fuel limit w.lengths = (do
        let (step, E) ← IET.induceFinish L O false { E with safCache := some (safList c (H.unswapped E w.lengths)) } w.lengths
        return (step, E, w.lengths)) := by
      unfold IET.induce
      rw [if_neg h1, p2]
      rfl
    rw [e1, e2]
    have hg' : H.Ok { E with safCache := some (safList c (H.unswapped E w.lengths)) } w.lengths := hg.ok.congr rfl rfl
    have hc' : H.CacheOk { E with safCache := some (safList c (H.unswapped E w.lengths)) } w.lengths := LawfulLengths.CacheOk.some
    obtain ⟨step, E', f1, f2, f3, f4⟩ := induceFinish_spec H hL (found := false) hg.ok hg.cache hg.track.weaken h1
      (fun _ => hg.track) (by simp)
    rw [f1]
    unfold IET.induceFinish at f1 ⊢
    rcases reduce_spec H E w.lengths hg.ok with ⟨hr, hirr⟩ | ⟨k, hr, hcut⟩
    · have hr' := (reduce_none hr).2 { E with safCache := some (safList c (H.unswapped E w.lengths)) } rfl rfl
      simp only [hr, hr', bind, Except.bind] at f1 ⊢
      split at f1
      · rename_i t top b bottom ht hb
        rw [ht, hb]
        try simp only
        split at f1
        · cases f1
        · rename_i cc hcc
          try rw [hcc]
          try simp only
          by_cases h0 : cc = 0
          · rw [if_pos h0] at f1
            simp only [pure, Except.pure, Except.ok.injEq, Prod.mk.injEq] at f1
            rw [if_pos h0]
            refine ⟨step, E', { E with
                top := top, bottom := IET.mergeBottom b t bottom, safCache := some (safList c (H.unswapped E w.lengths)) }, rfl, ?_, ?_⟩
            · simp only [pure, Except.pure, f1.1]
            · rw [← f1.2]; exact ⟨rfl, rfl, rfl, rfl⟩
          · rw [if_neg h0] at f1
            rw [if_neg h0]
            have b1 := boshernitzanNoPeriodicTrajectory_spec H hL hg.ok hg.cache
            obtain ⟨bb, b1, _⟩ := b1
            obtain ⟨_, _, _, b2⟩ := bosh_ok b1
            simp only [assertM, Bool.not_false, if_true, b1] at f1
            rw [ht, hb] at b2 f1
            simp only [assertM, Bool.not_false, if_true, b2]
            refine ⟨step, E', E', rfl, ?_, rfl, rfl, rfl, rfl⟩
            rw [f1]
            rfl
      · cases f1
    · have hr' := reduce_some hr (some (safList c (H.unswapped E w.lengths)))
      simp only [hr, hr', bind, Except.bind] at f1 ⊢
      refine ⟨step, E', E', rfl, ?_, rfl, rfl, rfl, rfl⟩
      rw [f1]
      rfl

/-- Two steps with limit one and a step with limit two for the example with integer lengths. -/
example (L : PPL) : (do
    let r ← Examples.intIET.induce L (SLengths.ops intArith) 0 1 Examples.intState
    r.2.1.induce L (SLengths.ops intArith) 0 1 r.2.2) = Examples.intIET.induce L (SLengths.ops intArith) 0 2 Examples.intState ∧
    (Examples.intIET.induce L (SLengths.ops intArith) 0 1 Examples.intState).toOption.map (fun r => r.1.result) =
      some .limitReached := ⟨rfl, rfl⟩

/-- A negative limit for the example with integer lengths. -/
example (L : PPL) : (Examples.intIET.induce L (SLengths.ops intArith) 0 (-7) Examples.intState).toOption.map
    (fun r => (r.1.result, r.2.1.top, r.2.1.bottom, r.2.2)) =
      some (.limitReached, Examples.intIET.top, Examples.intIET.bottom, Examples.intState) := rfl

end reachable

end Verif
