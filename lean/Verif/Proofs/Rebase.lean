import Verif.Proofs.Basis

/-!
# Induction does not depend on the bases of the coefficients
-/

namespace Verif

set_option linter.unusedSectionVars false

variable {σ T ε : Type} [CommRing T] [LinearOrder T] [IsStrictOrderedRing T] {O : LengthsOps σ T} {d : ℕ} {c : T →+ (Fin d → ℚ)} {H : LawfulLengths O c ε}
  {f : List Label → σ → M (List (List ℚ))}

/-! ### Functions that do not use coefficients -/

theorem zorichLoop_rebase (x : Ctx) (a : Label) : ∀ (suf rev : List Label) (s : σ), IET.zorichLoop (O.rebase f) x a rev suf s = IET.zorichLoop O x a rev suf s
  | [], _, _ => rfl
  | b :: rest, rev, s => by
    unfold IET.zorichLoop
    simp only [fun r s => zorichLoop_rebase x a rest r s]
    rfl

theorem zorich_rebase (E : IET T) (s : σ) : E.zorichInduction (O.rebase f) s = E.zorichInduction O s := by
  unfold IET.zorichInduction
  simp only [zorichLoop_rebase]
  rfl

theorem reduce_rebase (E : IET T) (s : σ) : E.reduce (O.rebase f) s = E.reduce O s := rfl

theorem allSimilar_rebase (l : SLengths T) (s : σ) : ∀ top, IET.allSimilar (O.rebase f) l s top = IET.allSimilar O l s top
  | [] => rfl
  | [_] => rfl
  | a :: b :: rest => by
    unfold IET.allSimilar
    rw [allSimilar_rebase l s (b :: rest)]
    rfl

theorem trackerLoop_rebase (E : IET T) (s : σ) : E.trackerLoop (O.rebase f) s = E.trackerLoop O s := by
  unfold IET.trackerLoop
  simp only [allSimilar_rebase]
  rfl

/-- Caches and trackers play no role. -/
theorem zorich_congr {E F : IET T} (s : σ) (h1 : E.top = F.top) (h2 : E.bottom = F.bottom) (h3 : E.swapped = F.swapped) {r : Bool} {F' : IET T} {s' : σ}
    (h : F.zorichInduction O s = .ok (r, F', s')) : E.zorichInduction O s = .ok (r, { E with bottom := F'.bottom }, s') := by
  obtain ⟨top, bottom, cache, tracker, sw⟩ := E
  obtain ⟨top', bottom', cache', tracker', sw'⟩ := F
  simp only at h1 h2 h3
  subst h1 h2 h3
  unfold IET.zorichInduction at h ⊢
  simp only at h ⊢
  cases top with
  | nil => simp only at h; cases h
  | cons a t =>
    cases bottom with
    | nil => simp only at h; cases h
    | cons b l =>
      simp only at h ⊢
      by_cases hab : a = b
      · rw [if_pos hab] at h ⊢
        cases h; rfl
      · rw [if_neg hab] at h ⊢
        simp only [IET.ctx] at h ⊢
        obtain ⟨⟨⟨moved, rest⟩, s₁⟩, e1, h⟩ := bindM_ok.1 h
        obtain ⟨bot, e2, h⟩ := bindM_ok.1 h
        rw [bindM_ok]
        refine ⟨_, e1, ?_⟩
        rw [bindM_ok]
        refine ⟨_, e2, ?_⟩
        cases bot with
        | nil => cases h
        | cons b' bs =>
          simp only at h ⊢
          obtain ⟨x, e3, h⟩ := bindM_ok.1 h
          rw [bindM_ok]
          refine ⟨_, e3, ?_⟩
          cases h; rfl

theorem trackerLoop_congr {E F : IET T} (s : σ) (h1 : E.top = F.top) (h2 : E.bottom = F.bottom) (h3 : E.tracker = F.tracker) {r : Bool} {t : Tracker T}
    (h : F.trackerLoop O s = .ok (r, { F with tracker := t })) : E.trackerLoop O s = .ok (r, { E with tracker := t }) := by
  obtain ⟨top, bottom, cache, tracker, sw⟩ := E
  obtain ⟨top', bottom', cache', tracker', sw'⟩ := F
  simp only at h1 h2 h3
  subst h1 h2 h3
  unfold IET.trackerLoop IET.trackerReset IET.size at h ⊢
  simp only at h ⊢
  by_cases h0 : tracker.ttl = 0
  · rw [if_pos h0] at h ⊢
    obtain ⟨x, e1, h⟩ := bindM_ok.1 h
    rw [bindM_ok]
    refine ⟨x, e1, ?_⟩
    cases h; rfl
  · rw [if_neg h0] at h ⊢
    by_cases h4 : top.length ≠ tracker.top.length
    · rw [if_pos h4] at h ⊢
      cases h; rfl
    · rw [if_neg h4] at h ⊢
      obtain ⟨x, e1, h⟩ := bindM_ok.1 h
      rw [bindM_ok]
      refine ⟨x, e1, ?_⟩
      cases x with
      | false => cases h; rfl
      | true =>
        simp only [Bool.not_true, Bool.false_eq_true, if_false] at h ⊢
        obtain ⟨x, e1, h⟩ := bindM_ok.1 h
        rw [bindM_ok]
        refine ⟨x, e1, ?_⟩
        cases h; rfl

/-! ### The relation -/

/-- `E` is what `F` is with other bases for the coefficients: only the cached SAF invariants differ, and for commensurable lengths the trackers. -/
structure Alike (H : LawfulLengths O c ε) (R : AIET T → AIET T → Prop) (E F : IET T) (s : σ) : Prop where
  ok : H.Ok F s
  cache : H.CacheOk F s
  top : E.top = F.top
  bottom : E.bottom = F.bottom
  swapped : E.swapped = F.swapped
  zero : ∀ v, E.safCache = some v → ((∀ x ∈ v, x = 0) ↔ ∀ x ∈ safList c (H.abs F s), x = 0)
  track : H.TrackInv R E s
  track' : H.TrackInv R F s
  sync : Commensurable (H.abs F s) ∨ ((∀ v, E.safCache = some v → (v.length = 0 ↔ d ≤ 1)) ∧ E.tracker = F.tracker)

variable {R : AIET T → AIET T → Prop} {E F : IET T} {s : σ}

theorem Alike.abs (h : Alike H R E F s) : H.abs E s = H.abs F s := by
  unfold LawfulLengths.abs
  rw [h.top, h.bottom]

theorem Alike.okE (h : Alike H R E F s) : H.Ok E s := h.ok.congr h.top h.bottom

theorem map_neg_zero {v : List ℚ} : (∀ x ∈ v.map (fun c => -c), x = 0) ↔ ∀ x ∈ v, x = 0 := by
  simp only [List.forall_mem_map, neg_eq_zero]

theorem safList_inv_zero {A : AIET T} (hA : A.Valid) : (∀ x ∈ safList c A.inv, x = 0) ↔ ∀ x ∈ safList c A, x = 0 := by
  rw [safList_inv hA, map_neg_zero]

theorem Commensurable.inv {A : AIET T} (hA : A.Valid) (h : Commensurable A) : Commensurable A.inv := by
  obtain ⟨u, hu, k, hk⟩ := h
  exact ⟨u, hu, k, hk.inv hA⟩

theorem Alike.swap (h : Alike H R E F s) : Alike H R E.swap F.swap s where
  ok := h.ok.swap
  cache := h.cache.swap
  top := h.bottom
  bottom := h.top
  swapped := by simp only [IET.swap, h.swapped]
  zero v hv := (h.zero v hv).trans (safList_inv_zero h.ok.valid).symm
  track := h.track.swap h.okE.valid
  track' := h.track'.swap h.ok.valid
  sync := h.sync.imp (fun hc => hc.inv h.ok.valid) id

theorem Alike.weaken (h : Alike H (Relation.TransGen RauzyStep) E F s) : Alike H Steps E F s := { h with track := h.track.weaken, track' := h.track'.weaken }

theorem Alike.good (h : Alike H (Relation.TransGen RauzyStep) E F s) : H.Good F s := ⟨h.ok, h.cache, h.track'⟩

/-- The SAF invariant gets computed. -/
theorem Alike.saf (hf : H.Coordinates f) (hc : ∀ x, c x = 0 → x = 0) (h : Alike H R E F s) : ∃ v, E.saf (O.rebase f) s = .ok (v, { E with safCache := some v }) ∧
    ((∀ x ∈ v, x = 0) ↔ ∀ x ∈ safList c (H.abs F s), x = 0) ∧ (Commensurable (H.abs F s) ∨ ((v.length = 0 ↔ d ≤ 1) ∧ E.tracker = F.tracker)) := by
  unfold IET.saf
  cases hE : E.safCache with
  | some v =>
    refine ⟨v, ?_, h.zero v hE, h.sync.imp id (fun hs => ⟨hs.1 v hE, hs.2⟩)⟩
    simp only
    rw [← hE]
  | none =>
    obtain ⟨C⟩ := exists_choice hf hc h.okE
    simp only [C.rawSaf h.okE, bind, Except.bind, pure, Except.pure]
    refine ⟨_, rfl, ?_, ?_⟩
    · rw [← h.abs, ← C.zero h.okE]
      split
      · rw [map_neg_zero]
      · rfl
    · rcases h.sync with hs | ⟨-, hs⟩
      · exact .inl hs
      · rcases C.length hc h.okE with hl | hl
        · rw [h.abs] at hl; exact .inl hl
        · refine .inr ⟨?_, hs⟩
          rw [← hl]
          split <;> simp

theorem Alike.setCache (h : Alike H R E F s) {v : List ℚ} (hz : (∀ x ∈ v, x = 0) ↔ ∀ x ∈ safList c (H.abs F s), x = 0)
    (hs : Commensurable (H.abs F s) ∨ ((v.length = 0 ↔ d ≤ 1) ∧ E.tracker = F.tracker)) :
    Alike H R { E with safCache := some v } { F with safCache := some (safList c (H.unswapped F s)) } s where
  ok := h.ok.congr rfl rfl
  cache := .some
  top := h.top
  bottom := h.bottom
  swapped := h.swapped
  zero v hv := by cases hv; exact hz
  track := h.track
  track' := h.track'
  sync := hs.imp id (fun hs => ⟨fun v hv => by cases hv; exact hs.1, hs.2⟩)

theorem Alike.saf0 (hf : H.Coordinates f) (hc : ∀ x, c x = 0 → x = 0) (h : Alike H R E F s) :
    RelM (fun x y => x.1 = y.1 ∧ Alike H R x.2 y.2 s) (E.saf0 (O.rebase f) s) (F.saf0 O s) := by
  obtain ⟨v, h1, h2, h3⟩ := h.saf hf hc
  rw [saf0_spec H h.ok h.cache]
  simp only [IET.saf0, h1, bind, Except.bind]
  refine ⟨?_, h.setCache h2 h3⟩
  simp only
  rw [Bool.eq_iff_iff]
  simp only [List.all_eq_true, decide_eq_true_eq]
  exact h2

theorem safInvariant_zero {v : List ℚ} (b : Bool) : (∀ x ∈ (if b then v.map (fun c => -c) else v), x = 0) ↔ ∀ x ∈ v, x = 0 := by
  cases b
  · rfl
  · exact map_neg_zero

theorem Alike.safInvariant (hf : H.Coordinates f) (hc : ∀ x, c x = 0 → x = 0) (h : Alike H R E F s) :
    RelM (fun x y => ((∀ a ∈ x.1, a = 0) ↔ ∀ a ∈ y.1, a = 0) ∧ Alike H R x.2 y.2 s) (E.safInvariant (O.rebase f) s) (F.safInvariant O s) := by
  obtain ⟨v, h1, h2, h3⟩ := h.saf hf hc
  rw [safInvariant_spec H h.ok h.cache]
  simp only [IET.safInvariant, h1, bind, Except.bind]
  refine ⟨?_, h.setCache h2 h3⟩
  simp only
  rw [safInvariant_zero, h2]

/-- Boshernitzan's criterion. -/
theorem Alike.bosh (hf : H.Coordinates f) (hc : ∀ x, c x = 0 → x = 0) {L : PPL} (hL : L.Lawful) (h : Alike H R E F s) :
    RelM (fun x y => x.1 = y.1 ∧ Alike H R x.2 y.2 s) (E.boshernitzanNoPeriodicTrajectory L (O.rebase f) s) (F.boshernitzanNoPeriodicTrajectory L O s) := by
  obtain ⟨b, g1, g2⟩ := boshernitzanNoPeriodicTrajectory_spec H hL h.ok h.cache
  rw [g1]
  obtain ⟨v, h1, h2, h3⟩ := h.saf hf hc
  have h4 := h.setCache h2 h3
  obtain ⟨C⟩ := exists_choice hf hc h4.okE
  have hrel : ({ E with safCache := some v } : IET T).boshernitzanEquations (O.rebase f) s =
      ({ E with safCache := some v } : IET T).boshernitzanEquations (O.withCoordinates C.c') s := by
    simp only [IET.boshernitzanEquations, IET.translations, IET.labelToCoefficients, IET.coefficients, C.eq]
  obtain ⟨relations, S, b', q1, q2, q3, q4⟩ := boshernitzanSpace_spec (H.withCoordinates C.c') hL (h4.okE.withCoordinates C.c') C.pos
  unfold IET.boshernitzanNoPeriodicTrajectory
  simp only [IET.saf0, h1, bind, Except.bind, hrel, q1, q2, q3, pure, Except.pure]
  have q4 : b' = true ↔ PosRelation c (H.abs F s) := by
    rw [q4, ← h.abs]
    exact C.pos_iff h4.okE
  by_cases hz : (v.all fun c => c = 0) = true
  · rw [if_pos hz]
    refine ⟨?_, h4⟩
    cases b with
    | false => rfl
    | true => exact absurd (h2.1 (by simpa using hz)) (g2.1 rfl).1
  · rw [if_neg hz]
    have hz' : ¬ ∀ x ∈ safList c (H.abs F s), x = 0 := fun hx => hz (by simpa using h2.2 hx)
    by_cases hl : ({ E with safCache := some v } : IET T).size ≤ 1
    · rw [if_pos hl]
      refine ⟨?_, h4⟩
      cases b with
      | false => rfl
      | true =>
        have := (g2.1 rfl).2.1
        simp only [IET.size, h.top] at hl
        omega
    · rw [if_neg hl]
      refine ⟨?_, h4⟩
      simp only [IET.size, h.top] at hl
      simp only
      rw [Bool.eq_iff_iff, g2, Bool.not_eq_true', ← Bool.not_eq_true, q4]
      exact ⟨fun x => ⟨hz', by omega, x⟩, fun x => x.2.2⟩

theorem Commensurable.not_loop (hv : (H.abs E s).Valid) (h : Commensurable (H.abs E s)) : ¬ H.LoopFound E s := by
  obtain ⟨u, hu, k, hk⟩ := h
  exact fun hl => hl.false hv hu hk

/-- The tracker. -/
theorem Alike.trackStep (hf : H.Coordinates f) (hc : ∀ x, c x = 0 → x = 0) (h : Alike H (Relation.TransGen RauzyStep) E F s) (z : Bool) :
    RelM (fun x y => x.1 = y.1 ∧ (x.1 = false → Alike H Steps x.2 y.2 s) ∧ (x.1 = true → Alike H (Relation.TransGen RauzyStep) x.2 y.2 s))
      (E.trackStep (O.rebase f) z s) (F.trackStep O z s) := by
  unfold IET.trackStep
  cases z with
  | false => exact ⟨rfl, fun _ => h.weaken, fun e => by cases e⟩
  | true =>
    obtain ⟨v, h1, h2, h3⟩ := h.saf hf hc
    have h4 := h.setCache h2 h3
    simp only [if_true, h1, saf_spec H h.ok h.cache, bind, Except.bind, pure, Except.pure, trackerLoop_rebase]
    have hlen : (safList c (H.unswapped F s)).length = 0 ↔ d ≤ 1 := safList_length _
    obtain ⟨r, t, g1, g2, g3⟩ := trackerLoop_spec H h4.okE h4.track
    obtain ⟨r', t', k1, k2, k3⟩ := trackerLoop_spec H h4.ok h4.track'
    rcases h3 with h3 | ⟨h3, h3'⟩
    · -- commensurable: no loops
      have hr : r = false := by
        rw [← Bool.not_eq_true]
        intro hr
        refine Commensurable.not_loop (E := { { E with safCache := some v } with tracker := t }) ?_ ?_ (g3 hr).2
        · exact h.okE.valid
        · show Commensurable (H.abs E s); rw [h.abs]; exact h3
      have hr' : r' = false := by
        rw [← Bool.not_eq_true]
        intro hr
        refine Commensurable.not_loop (E := { { F with safCache := some (safList c (H.unswapped F s)) } with tracker := t' }) ?_ ?_ (k3 hr).2
        · exact h.ok.valid
        · exact h3
      subst hr hr'
      have hE : ∃ T₁, (if v.length = 0 then Except.ok (false, { E with safCache := some v }) else ({ E with safCache := some v } : IET T).trackerLoop O s) =
          (.ok (false, { { E with safCache := some v } with tracker := T₁ }) : M _) ∧ H.TrackInv Steps { { E with safCache := some v } with tracker := T₁ } s := by
        by_cases hv : v.length = 0
        · rw [if_pos hv]; exact ⟨E.tracker, rfl, h4.track.weaken⟩
        · rw [if_neg hv]; exact ⟨t, g1, g2 rfl⟩
      have hF : ∃ T₁, (if (safList c (H.unswapped F s)).length = 0 then Except.ok (false, { F with safCache := some (safList c (H.unswapped F s)) })
            else ({ F with safCache := some (safList c (H.unswapped F s)) } : IET T).trackerLoop O s) =
          (.ok (false, { { F with safCache := some (safList c (H.unswapped F s)) } with tracker := T₁ }) : M _) ∧
          H.TrackInv Steps { { F with safCache := some (safList c (H.unswapped F s)) } with tracker := T₁ } s := by
        by_cases hv : (safList c (H.unswapped F s)).length = 0
        · rw [if_pos hv]; exact ⟨F.tracker, rfl, h4.track'.weaken⟩
        · rw [if_neg hv]; exact ⟨t', k1, k2 rfl⟩
      obtain ⟨T₁, e1, e2⟩ := hE
      obtain ⟨T₂, e3, e4⟩ := hF
      rw [e1, e3]
      refine ⟨rfl, fun _ => ?_, fun e => by cases e⟩
      exact { ok := h.ok.congr rfl rfl, cache := h4.cache, top := h.top, bottom := h.bottom, swapped := h.swapped, zero := h4.zero, track := e2, track' := e4, sync := .inl h3 }
    · by_cases hd : d ≤ 1
      · rw [if_pos (h3.2 hd), if_pos (hlen.2 hd)]
        exact ⟨rfl, fun _ => h4.weaken, fun e => by cases e⟩
      · rw [if_neg (fun e => hd (h3.1 e)), if_neg (fun e => hd (hlen.1 e)), k1]
        have g1' := trackerLoop_congr (E := { E with safCache := some v }) (F := { F with safCache := some (safList c (H.unswapped F s)) }) s h.top h.bottom h3' k1
        rw [g1'] at g1
        obtain ⟨rfl, ht⟩ : r' = r ∧ t' = t := by
          simp only [Except.ok.injEq, Prod.mk.injEq, IET.mk.injEq] at g1
          exact ⟨g1.1, g1.2.2.2.2.1⟩
        subst ht
        rw [g1']
        have main : ∀ R, H.TrackInv R { { E with safCache := some v } with tracker := t' } s →
            H.TrackInv R { { F with safCache := some (safList c (H.unswapped F s)) } with tracker := t' } s →
            Alike H R { { E with safCache := some v } with tracker := t' } { { F with safCache := some (safList c (H.unswapped F s)) } with tracker := t' } s :=
          fun R e2 e4 => ⟨h.ok.congr rfl rfl, h4.cache, h.top, h.bottom, h.swapped, h4.zero, e2, e4, .inr ⟨(fun w hw => by cases hw; exact h3), rfl⟩⟩
        refine ⟨rfl, fun e => main _ (g2 e) (k2 e), fun e => main _ (g3 e).1 (k3 e).1⟩

/-! ### Induction -/

theorem Commensurable.steps {A B : AIET T} (hA : A.Valid) (h : Commensurable A) (hs : Steps A B) : Commensurable B := by
  obtain ⟨u, hu, k, hk⟩ := h
  obtain ⟨k', hk'⟩ := Steps.mult_fwd hu hA hs hk
  exact ⟨u, hu, k', hk'⟩

theorem Commensurable.sub {A B : AIET T} (h : Commensurable A) (hs : ∀ a ∈ B.top, a ∈ A.top ∧ B.len a = A.len a) : Commensurable B := by
  obtain ⟨u, hu, k, hk⟩ := h
  refine ⟨u, hu, k, fun a ha => ?_⟩
  rw [(hs a ha).2]
  exact hk a (hs a ha).1

theorem Alike.zorich (h : Alike H Steps E F s) : ∃ r E' F' s', E.zorichInduction (O.rebase f) s = .ok (r, E', s') ∧ F.zorichInduction O s = .ok (r, F', s') ∧
    ZorichSpec H F s r F' s' ∧ E'.tracker = E.tracker ∧ Alike H Steps E' F' s' := by
  obtain ⟨r, F', s', h1, h2⟩ := zorichInduction_spec H F s h.ok
  have h3 := zorich_congr s h.top h.bottom h.swapped h1
  refine ⟨r, { E with bottom := F'.bottom }, F', s', by rw [zorich_rebase]; exact h3, h1, h2, rfl, ?_⟩
  have habs : H.abs { E with bottom := F'.bottom } s' = H.abs F' s' := by
    simp only [LawfulLengths.abs, h2.top, h.top]
  exact {
    ok := h2.ok
    cache := Moves.cache (.single (.top h.ok h2)) h.ok h.cache h2.cache
    top := by rw [h2.top]; exact h.top
    bottom := rfl
    swapped := by rw [h2.swapped]; exact h.swapped
    zero := fun v hv => by
      rw [safList_congr (E := H.abs F s) (E' := H.abs F' s') (fun φ ψ => h2.run.saf_eq φ ψ h.ok.valid)]
      exact h.zero v hv
    track := h.track.steps_weak h.okE.valid h2.dom rfl (by rw [h.abs, habs]; exact h2.run.steps)
    track' := h.track'.steps_weak h.ok.valid h2.dom h2.tracker h2.run.steps
    sync := h.sync.imp (fun hc => hc.steps h.ok.valid h2.run.steps) (fun hs => ⟨hs.1, by rw [h2.tracker]; exact hs.2⟩) }

theorem Alike.zorich' (h : Alike H (Relation.TransGen RauzyStep) E F s) : ∃ r E' F' s', E.zorichInduction (O.rebase f) s = .ok (r, E', s') ∧
    F.zorichInduction O s = .ok (r, F', s') ∧ Alike H (Relation.TransGen RauzyStep) E' F' s' := by
  obtain ⟨r, E', F', s', h1, h2, h3, h4, h5⟩ := h.weaken.zorich (f := f)
  refine ⟨r, E', F', s', h1, h2, { h5 with track := ?_, track' := ?_ }⟩
  · exact h.track.steps_keep h.okE.valid h3.dom h4 (by rw [h.abs, h5.abs]; exact h3.run.steps)
  · exact h.track'.steps_keep h.ok.valid h3.dom h3.tracker h3.run.steps

theorem Alike.strong {E' F' : IET T} {s' : σ} (h : Alike H Steps E F s) (h' : Alike H Steps E' F' s') (hd : H.dom s' = H.dom s) (t1 : E'.tracker = E.tracker)
    (t2 : F'.tracker = F.tracker) (hT : Relation.TransGen RauzyStep (H.abs F s) (H.abs F' s')) : Alike H (Relation.TransGen RauzyStep) E' F' s' :=
  { h' with
    track := h.track.steps_strong h.okE.valid hd t1 (by rw [h.abs, h'.abs]; exact hT)
    track' := h.track'.steps_strong h.ok.valid hd t2 hT }

theorem Alike.induceLoop (hf : H.Coordinates f) (hc : ∀ x, c x = 0 → x = 0) (z : Bool) : ∀ (n : ℕ) {E F : IET T} {s : σ}, Alike H (Relation.TransGen RauzyStep) E F s →
    RelM (fun x y => x.1 = y.1 ∧ x.2.2 = y.2.2 ∧ Alike H Steps x.2.1 y.2.1 y.2.2 ∧ (x.1 ≠ .found → Alike H (Relation.TransGen RauzyStep) x.2.1 y.2.1 y.2.2))
      (IET.induceLoop (O.rebase f) z n E s) (IET.induceLoop O z n F s)
  | 0, E, F, s, h => ⟨rfl, rfl, h.weaken, fun _ => h⟩
  | n + 1, E, F, s, h => by
    unfold IET.induceLoop
    refine (h.trackStep hf hc z).bind ?_
    rintro ⟨r, E₁⟩ ⟨_, F₁⟩ ⟨e, h1, h2⟩
    simp only at e h1 h2
    subst e
    cases r with
    | true =>
      simp only [if_true]
      exact ⟨rfl, rfl, (h2 rfl).weaken, fun _ => h2 rfl⟩
    | false =>
    simp only [Bool.false_eq_true, if_false]
    have h₁ := h1 rfl
    obtain ⟨v, E₂, F₂, s₂, z1, z2, z3, z4, h₂⟩ := h₁.zorich (f := f)
    rw [z1, z2]
    simp only [bind, Except.bind]
    cases v with
    | true =>
      simp only [if_true]
      exact ⟨rfl, rfl, h₂, fun e => absurd rfl e⟩
    | false =>
    simp only [Bool.false_eq_true, if_false]
    obtain ⟨v, E₃, F₃, s₃, y1, y2, y3, y4, h₃⟩ := h₂.swap.zorich (f := f)
    rw [y1, y2]
    simp only [bind, Except.bind]
    cases v with
    | true =>
      simp only [if_true]
      exact ⟨rfl, rfl, h₃.swap, fun e => absurd rfl e⟩
    | false =>
    simp only [Bool.false_eq_true, if_false]
    obtain ⟨a, b, ha, hb⟩ := z3.ok.valid.heads
    have hlt : H.len s₂ a < H.len s₂ b :=
      lt_of_le_of_ne (z3.final a b ha hb) (fun h3 => by simpa using (z3.ret a b ha hb).mpr h3)
    have hT := transGen_inv (y3.transGen (a := b) (b := a) hb ha hlt)
    exact Alike.induceLoop hf hc z n (h₂.strong h₃.swap y3.dom (by simpa using y4) (by simpa using y3.tracker) hT)

theorem Alike.inducePhase (hf : H.Coordinates f) (hc : ∀ x, c x = 0 → x = 0) (fuel : ℕ) (limit : ℤ) (h : Alike H (Relation.TransGen RauzyStep) E F s) :
    RelM (fun x y => x.1 = y.1 ∧ x.2.2 = y.2.2 ∧ Alike H Steps x.2.1 y.2.1 y.2.2 ∧ (x.1 ≠ .found → Alike H (Relation.TransGen RauzyStep) x.2.1 y.2.1 y.2.2))
      (E.inducePhase (O.rebase f) fuel limit s) (F.inducePhase O fuel limit s) := by
  unfold IET.inducePhase
  by_cases h0 : limit = 0
  · rw [if_pos h0, if_pos h0]; exact ⟨rfl, rfl, h.weaken, fun _ => h⟩
  · rw [if_neg h0, if_neg h0]
    refine (h.saf0 hf hc).bind ?_
    rintro ⟨z, E₁⟩ ⟨_, F₁⟩ ⟨e, h1⟩
    simp only at e h1 ⊢
    subst e
    by_cases h2 : limit = -1
    · rw [if_pos h2, if_pos h2]
      refine (h1.induceLoop hf hc z fuel).bind ?_
      rintro x y ⟨e, h3⟩
      rw [e]
      by_cases h4 : y.1 = .exhausted
      · rw [if_pos h4, if_pos h4]; exact rfl
      · rw [if_neg h4, if_neg h4]
        rw [e] at h3
        exact ⟨e, h3.1, h3.2.1, fun q => h3.2.2 (e ▸ q)⟩
    · rw [if_neg h2, if_neg h2]
      exact h1.induceLoop hf hc z limit.toNat

/-- A new IET. -/
theorem Alike.fresh {top bottom : List Label} (h : H.Ok (IET.fresh top bottom : IET T) s) : Alike H (Relation.TransGen RauzyStep) (IET.fresh top bottom) (IET.fresh top bottom) s where
  ok := h
  cache := .none rfl
  top := rfl
  bottom := rfl
  swapped := rfl
  zero v hv := by cases hv
  track := .inl rfl
  track' := .inl rfl
  sync := .inr ⟨(fun v hv => by cases hv), rfl⟩

theorem reduce_congr {E F R : IET T} {k : ℕ} (s : σ) (h1 : E.top = F.top) (h2 : E.bottom = F.bottom)
    (h : F.reduce O s = .ok (some R, { F with top := F.top.take k, bottom := F.bottom.take k, safCache := none })) :
    E.reduce O s = .ok (some R, { E with top := F.top.take k, bottom := F.bottom.take k, safCache := none }) := by
  obtain ⟨top, bottom, cache, tracker, sw⟩ := E
  obtain ⟨top', bottom', cache', tracker', sw'⟩ := F
  simp only at h1 h2
  subst h1 h2
  unfold IET.reduce at h ⊢
  simp only at h ⊢
  obtain ⟨x, e1, h⟩ := bindM_ok.1 h
  rw [bindM_ok]
  refine ⟨x, e1, ?_⟩
  split at h
  · obtain ⟨y, e2, h⟩ := bindM_ok.1 h
    cases h
  · rename_i hx
    rw [if_neg hx]
    obtain ⟨y, e2, h⟩ := bindM_ok.1 h
    rw [bindM_ok]
    refine ⟨y, e2, ?_⟩
    obtain ⟨y, e2, h⟩ := bindM_ok.1 h
    rw [bindM_ok]
    refine ⟨y, e2, ?_⟩
    simp only [pure, Except.pure, Except.ok.injEq, Prod.mk.injEq, IET.mk.injEq] at h ⊢
    exact ⟨h.1, h.2.1, h.2.2.1, trivial, trivial, trivial⟩

theorem reduce_congr_none {E F F' : IET T} (s : σ) (h1 : E.top = F.top) (h2 : E.bottom = F.bottom)
    (h : F.reduce O s = .ok (none, F')) : E.reduce O s = .ok (none, E) := by
  obtain ⟨top, bottom, cache, tracker, sw⟩ := E
  obtain ⟨top', bottom', cache', tracker', sw'⟩ := F
  simp only at h1 h2
  subst h1 h2
  unfold IET.reduce at h ⊢
  simp only at h ⊢
  obtain ⟨x, e1, h⟩ := bindM_ok.1 h
  rw [bindM_ok]
  refine ⟨x, e1, ?_⟩
  split at h
  · rename_i hx
    rw [if_pos hx]
    obtain ⟨y, e2, h⟩ := bindM_ok.1 h
    rw [bindM_ok]
    exact ⟨y, e2, rfl⟩
  · obtain ⟨y, e2, h⟩ := bindM_ok.1 h
    obtain ⟨y, e2, h⟩ := bindM_ok.1 h
    cases h

theorem Alike.reduce (h : Alike H Steps E F s) :
    (E.reduce (O.rebase f) s = .ok (none, E) ∧ F.reduce O s = .ok (none, F)) ∨
    ∃ R E' F', E.reduce (O.rebase f) s = .ok (some R, E') ∧ F.reduce O s = .ok (some R, F') ∧ Alike H (Relation.TransGen RauzyStep) E' F' s ∧
      Alike H (Relation.TransGen RauzyStep) R R s := by
  rw [reduce_rebase]
  rcases reduce_spec H F s h.ok with ⟨hr, -⟩ | ⟨k, hr, hcut⟩
  · exact .inl ⟨reduce_congr_none s h.top h.bottom hr, hr⟩
  · right
    have hv := h.ok.valid
    have hlt : k < F.top.length := hcut.lt
    refine ⟨_, _, _, reduce_congr s h.top h.bottom hr, hr, ?_, ?_⟩
    · exact {
        ok := ⟨h.ok.inv, h.ok.stack, fun a ha => h.ok.dom a (List.mem_of_mem_take ha), hcut.valid_left hv, h.ok.nonneg⟩
        cache := .none rfl
        top := rfl
        bottom := rfl
        swapped := h.swapped
        zero := fun v hv => by cases hv
        track := h.track.shrink (E' := { E with top := F.top.take k, bottom := F.bottom.take k, safCache := none }) h.okE.valid rfl
          (by show (F.top.take k).length < E.top.length; rw [List.length_take, h.top]; omega)
        track' := h.track'.shrink (E' := { F with top := F.top.take k, bottom := F.bottom.take k, safCache := none }) h.ok.valid rfl
          (by show (F.top.take k).length < F.top.length; rw [List.length_take]; omega)
        sync := h.sync.imp (fun hc => hc.sub (fun a ha => ⟨List.mem_of_mem_take ha, rfl⟩)) (fun hs => ⟨(fun v hv => by cases hv), hs.2⟩) }
    · exact Alike.fresh ⟨h.ok.inv, h.ok.stack, fun a ha => h.ok.dom a (List.mem_of_mem_drop ha), hcut.valid_right hv, h.ok.nonneg⟩

theorem Alike.induceFinish (hf : H.Coordinates f) (hc : ∀ x, c x = 0 → x = 0) {L : PPL} (hL : L.Lawful) {found : Bool} (h : Alike H Steps E F s)
    (hsize : F.top.length ≠ 1) (h' : found = false → Alike H (Relation.TransGen RauzyStep) E F s) (hfound : found = true → HeadsEq (H.abs F s)) :
    RelM (fun x y => x.1 = y.1 ∧ (∀ R ∈ x.1.additional, Alike H (Relation.TransGen RauzyStep) R R s) ∧ Alike H (Relation.TransGen RauzyStep) x.2 y.2 s)
      (E.induceFinish L (O.rebase f) found s) (F.induceFinish L O found s) := by
  obtain ⟨step, F', g1, g2, g3, g4⟩ := induceFinish_spec H hL h.ok h.cache h.track' hsize (fun e => (h' e).track') hfound
  unfold IET.induceFinish at g1 ⊢
  rcases h.reduce (f := f) with ⟨hE, hF⟩ | ⟨R, E₁, F₁, hE, hF, h1, h2⟩
  · rw [hE, hF]
    rw [hF] at g1
    simp only [bind, Except.bind, h.top, h.bottom] at g1 ⊢
    cases htop : F.top with
    | nil => exact absurd htop h.ok.valid.ne_nil
    | cons x top =>
      cases hbot : F.bottom with
      | nil => exact absurd hbot h.ok.valid.inv.ne_nil
      | cons y bottom =>
        simp only [htop, hbot] at g1 ⊢
        rw [show (O.rebase f).cmp2 x y s = O.cmp2 x y s from rfl]
        cases hu : O.cmp2 x y s with
        | error e => rw [hu] at g1; cases g1
        | ok u =>
          rw [hu] at g1
          simp only at g1 ⊢
          by_cases h0 : u = 0
          · simp only [h0, if_true] at g1 ⊢
            simp only [pure, Except.pure, Except.ok.injEq, Prod.mk.injEq] at g1
            obtain ⟨rfl, rfl⟩ := g1
            cases g2 with
            | nonSeparating m1 m2 m3 m4 m5 m6 =>
            refine ⟨rfl, fun R hR => by simp at hR, ?_⟩
            exact {
              ok := g3.ok
              cache := g3.cache
              top := rfl
              bottom := rfl
              swapped := h.swapped
              zero := fun v hv => by
                rw [safList_congr (E := H.abs F s) (E' := H.abs _ s) (fun φ ψ => m6.saf_eq φ ψ h.ok.valid)]
                exact h.zero v hv
              track := h.track.shrink (E' := { E with top := top, bottom := IET.mergeBottom y x bottom }) h.okE.valid rfl
                (by show top.length < E.top.length; rw [h.top, htop]; simp)
              track' := g3.track
              sync := h.sync.imp (fun hc => hc.sub (fun a ha => ⟨by show a ∈ F.top; rw [htop]; exact List.mem_cons_of_mem _ ha, rfl⟩)) id }
          · simp only [h0, if_false] at g1 ⊢
            cases hb : found with
            | true =>
              rw [hb] at g1
              simp only [assertM, Bool.not_true, Bool.false_eq_true, if_false] at g1
              cases g1
            | false =>
              simp only [assertM, Bool.not_false, if_true]
              refine ((h' hb).bosh hf hc hL).bind ?_
              rintro ⟨b, E₁⟩ ⟨_, F₁⟩ ⟨e, h1⟩
              simp only at e h1
              subst e
              cases b with
              | true => exact ⟨rfl, fun R hR => by simp at hR, h1⟩
              | false => exact ⟨rfl, fun R hR => by simp at hR, h1⟩
  · rw [hE, hF]
    simp only [bind, Except.bind]
    rw [h1.top, h1.bottom]
    split
    · exact ⟨rfl, fun R' hR => by cases hR; exact h2, h1⟩
    · exact rfl

theorem Alike.induce (hf : H.Coordinates f) (hc : ∀ x, c x = 0 → x = 0) {L : PPL} (hL : L.Lawful) (fuel : ℕ) (limit : ℤ) (h : Alike H (Relation.TransGen RauzyStep) E F s) :
    RelM (fun x y => x.1 = y.1 ∧ x.2.2 = y.2.2 ∧ (∀ R ∈ x.1.additional, Alike H (Relation.TransGen RauzyStep) R R y.2.2) ∧
        Alike H (Relation.TransGen RauzyStep) x.2.1 y.2.1 y.2.2)
      (E.induce L (O.rebase f) fuel limit s) (F.induce L O fuel limit s) := by
  unfold IET.induce
  simp only [IET.size, h.top]
  by_cases h1 : F.top.length = 1
  · simp only [h1, if_true]
    exact ⟨rfl, rfl, fun R hR => by simp at hR, h⟩
  · simp only [h1, if_false]
    have hp := h.inducePhase hf hc fuel limit
    rcases inducePhase_spec H fuel limit F s h.good with ⟨he, -⟩ | ⟨e, F₁, s₁, he, hm, -, -, m2, -⟩
    · rw [he] at hp ⊢
      cases hE : IET.inducePhase (O.rebase f) fuel limit E s with
      | ok b => rw [hE] at hp; exact hp.elim
      | error e => rw [hE] at hp; exact hp
    · obtain ⟨⟨e', E₁, s₁'⟩, hE, h2, h3, h4, h5⟩ := hp.symm.ok_left he
      simp only at h2 h3 h4 h5
      subst h2 h3
      rw [he, hE]
      simp only [bind, Except.bind]
      by_cases hauto : e' = .autoSimilar
      · simp only [hauto, if_true]
        exact ⟨rfl, rfl, fun R hR => by simp at hR, h5 (by rw [hauto]; simp)⟩
      · simp only [hauto, if_false]
        have hl : F₁.top.length ≠ 1 := by
          have := (hm.top_perm).length_eq
          simp only at this
          omega
        refine (h4.induceFinish hf hc hL (found := decide (e' = .found)) hl (fun e => h5 (by simpa using e)) (fun e => (m2 (by simpa using e)).2)).bind ?_
        rintro ⟨st, E'⟩ ⟨st', F'⟩ ⟨k1, k2, k3⟩
        exact ⟨k1, rfl, k2, k3⟩

/-! ### Histories -/

theorem Alike.call (hf : H.Coordinates f) (hc : ∀ x, c x = 0 → x = 0) {L : PPL} (hL : L.Lawful) (fuel : ℕ) (op : Op)
    (h : Alike H (Relation.TransGen RauzyStep) E F s) :
    RelM (fun x y => x.1 = y.1 ∧ x.2.2 = y.2.2 ∧ (∀ R ∈ x.1, Alike H (Relation.TransGen RauzyStep) R R y.2.2) ∧ Alike H (Relation.TransGen RauzyStep) x.2.1 y.2.1 y.2.2)
      (op.call L (O.rebase f) fuel E s) (op.call L O fuel F s) := by
  cases op with
  | zorichInduction i =>
    obtain ⟨r, E', F', s', h1, h2, h5⟩ := h.zorich' (f := f)
    simp only [Op.call, h1, h2, bind, Except.bind]
    exact ⟨rfl, rfl, fun R hR => by simp at hR, h5⟩
  | swap i => exact ⟨rfl, rfl, fun R hR => by simp at hR, h.swap⟩
  | reduce i =>
    rcases h.weaken.reduce (f := f) with ⟨hE, hF⟩ | ⟨R, E₁, F₁, hE, hF, h1, h2⟩
    · simp only [Op.call, hE, hF, bind, Except.bind]
      exact ⟨rfl, rfl, fun R hR => by simp at hR, h⟩
    · simp only [Op.call, hE, hF, bind, Except.bind]
      refine ⟨rfl, rfl, fun R' hR => ?_, h1⟩
      simp only [Option.toList_some, List.mem_singleton] at hR
      rw [hR]; exact h2
  | induce i limit =>
    refine (h.induce hf hc hL fuel limit).bind ?_
    rintro ⟨r, E', s'⟩ ⟨r', F', t'⟩ ⟨h1, h2, h3, h4⟩
    simp only at h1 h2 h3 h4
    subst h1 h2
    exact ⟨rfl, rfl, fun R hR => h3 R (by simpa using hR), h4⟩
  | safInvariant i =>
    refine (h.safInvariant hf hc).bind ?_
    rintro ⟨r, E'⟩ ⟨r', F'⟩ ⟨h1, h3⟩
    exact ⟨rfl, rfl, fun R hR => by simp at hR, h3⟩
  | boshernitzanNoPeriodicTrajectory i =>
    refine (h.bosh hf hc hL).bind ?_
    rintro ⟨r, E'⟩ ⟨r', F'⟩ ⟨h1, h3⟩
    exact ⟨rfl, rfl, fun R hR => by simp at hR, h3⟩

/-- Two worlds that are alike. -/
structure AlikeWorld (H : LawfulLengths O c ε) (w w' : World σ T) : Prop where
  ok : H.WorldOk w'
  lengths : w.lengths = w'.lengths
  alike : List.Forall₂ (fun E F => Alike H (Relation.TransGen RauzyStep) E F w'.lengths) w.pieces w'.pieces

theorem AlikeWorld.get {w w' : World σ T} (h : AlikeWorld H w w') {i : ℕ} {E : IET T} (hE : w.pieces[i]? = some E) :
    ∃ F, w'.pieces[i]? = some F ∧ Alike H (Relation.TransGen RauzyStep) E F w'.lengths := by
  have hi : i < w.pieces.length := (List.getElem?_eq_some_iff.1 hE).1
  have hi' : i < w'.pieces.length := by have := h.alike.length_eq; omega
  refine ⟨_, List.getElem?_eq_getElem hi', ?_⟩
  have := (List.forall₂_iff_get.1 h.alike).2 i hi hi'
  rw [List.get_eq_getElem, List.get_eq_getElem, (List.getElem?_eq_some_iff.1 hE).2] at this
  exact this

/-- The lengths of other intervals have changed. -/
theorem Alike.frame {s' : σ} (h : Alike H (Relation.TransGen RauzyStep) E F s) (hg : H.Good F s') (hd : H.dom s' = H.dom s)
    (hl : ∀ a ∈ F.top, H.len s' a = H.len s a) : Alike H (Relation.TransGen RauzyStep) E F s' where
  ok := hg.ok
  cache := hg.cache
  top := h.top
  bottom := h.bottom
  swapped := h.swapped
  zero v hv := by
    rw [AIET.Agree.safList (A := H.abs F s') (A' := H.abs F s) hg.ok.valid ⟨rfl, rfl, hl⟩]
    exact h.zero v hv
  track := (LawfulLengths.Good.frame (F := { E with safCache := none }) ⟨h.okE.congr rfl rfl, .none rfl, h.track⟩ hg.ok hd (fun a ha => hl a (h.top ▸ ha))).track
  track' := hg.track
  sync := h.sync.imp (fun hc => hc.sub (fun a ha => ⟨ha, hl a ha⟩)) id

theorem AlikeWorld.exec (hf : H.Coordinates f) (hc : ∀ x, c x = 0 → x = 0) {L : PPL} (hL : L.Lawful) (fuel : ℕ) (op : Op) {w w' : World σ T} (h : AlikeWorld H w w') :
    RelM (AlikeWorld H) (op.exec L (O.rebase f) fuel w) (op.exec L O fuel w') := by
  unfold Op.exec
  cases hE : w.pieces[op.index]? with
  | none =>
    have : w'.pieces[op.index]? = none := by
      have := h.alike.length_eq
      rw [List.getElem?_eq_none_iff] at hE ⊢; omega
    rw [this]; exact h
  | some E =>
    obtain ⟨F, hF, hs⟩ := h.get hE
    have hcall := hs.call hf hc hL fuel op
    have hx := Op.exec_spec H hL fuel op w' h.ok
    unfold Op.exec at hx
    rw [hF] at hx ⊢
    rw [h.lengths]
    simp only at hx ⊢
    cases h1 : op.call L (O.rebase f) fuel E w'.lengths with
    | error e =>
      rw [h1] at hcall
      cases h2 : op.call L O fuel F w'.lengths with
      | error e' => rw [h2] at hcall; exact hcall
      | ok b => rw [h2] at hcall; exact hcall.elim
    | ok r =>
      obtain ⟨r', h2, h3⟩ := hcall.ok_left h1
      rw [h2] at hx ⊢
      obtain ⟨new, E', s'⟩ := r
      obtain ⟨new', F', t'⟩ := r'
      simp only [bind, Except.bind, pure, Except.pure] at hx h3 ⊢
      obtain ⟨e1, e2, e3, e4⟩ := h3
      subst e1 e2
      obtain ⟨w1, hw, hspec⟩ := hx.resolve_left (fun q => by cases q.1)
      cases hw
      refine ⟨hspec.ok, rfl, ?_⟩
      simp only
      refine List.rel_append (R := fun E F => Alike H (Relation.TransGen RauzyStep) E F s') ?_ ?_
      · refine forall₂_set h.alike ?_ e4
        intro j A B hj hA hB hR
        obtain ⟨q1, q2⟩ := hspec.others j B hj hB
        exact hR.frame (hspec.ok.good B (List.mem_of_getElem? q1)) hspec.dom q2
      · rw [List.forall₂_same]
        exact e3

end Verif
