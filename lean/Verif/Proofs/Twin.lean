import Verif.Proofs.Independence

/-!
# Two IETs with the same labels and lengths

Whatever the state of caches and trackers, and whether swapped or not: two IETs with the same labels and lengths behave in the same way except for
the tracker which might report a loop earlier for one of the two.
-/

namespace Verif

set_option linter.unusedSectionVars false

variable {σ σ' T ε ε' : Type} [CommRing T] [LinearOrder T] [IsStrictOrderedRing T] {O : LengthsOps σ T} {O' : LengthsOps σ' T}
  {d : ℕ} {c : T →+ (Fin d → ℚ)}

/-- The same labels and lengths. -/
structure Twin (H : LawfulLengths O c ε) (H' : LawfulLengths O' c ε') (E : IET T) (s : σ) (F : IET T) (t : σ') : Prop where
  ok : H.Ok E s
  ok' : H'.Ok F t
  cache : H.CacheOk E s
  cache' : H'.CacheOk F t
  top : E.top = F.top
  bottom : E.bottom = F.bottom
  len : ∀ a ∈ E.top, H.len s a = H'.len t a

section

variable {H : LawfulLengths O c ε} {H' : LawfulLengths O' c ε'}

theorem Twin.agree {E F : IET T} {s : σ} {t : σ'} (h : Twin H H' E s F t) : (H.abs E s).Agree (H'.abs F t) := ⟨h.top, h.bottom, h.len⟩

theorem Twin.safList {E F : IET T} {s : σ} {t : σ'} (h : Twin H H' E s F t) : safList c (H.abs E s) = safList c (H'.abs F t) :=
  AIET.Agree.safList h.ok.valid h.agree

theorem Twin.swap {E F : IET T} {s : σ} {t : σ'} (h : Twin H H' E s F t) : Twin H H' E.swap s F.swap t where
  ok := h.ok.swap
  ok' := h.ok'.swap
  cache := h.cache.swap
  cache' := h.cache'.swap
  top := h.bottom
  bottom := h.top
  len a ha := h.len a (h.ok.valid.perm.mem_iff.1 ha)

/-- Only caches, trackers and orientation change. -/
theorem Twin.aux {E F E' F' : IET T} {s : σ} {t : σ'} (h : Twin H H' E s F t) (h1 : E'.top = E.top) (h2 : E'.bottom = E.bottom)
    (h3 : F'.top = F.top) (h4 : F'.bottom = F.bottom) (hc : H.CacheOk E' s) (hc' : H'.CacheOk F' t) : Twin H H' E' s F' t where
  ok := h.ok.congr h1 h2
  ok' := h.ok'.congr h3 h4
  cache := hc
  cache' := hc'
  top := by rw [h1, h3, h.top]
  bottom := by rw [h2, h4, h.bottom]
  len a ha := h.len a (h1 ▸ ha)

theorem Twin.zorich {E F : IET T} {s : σ} {t : σ'} (h : Twin H H' E s F t) :
    RelM (fun x y => x.1 = y.1 ∧ Twin H H' x.2.1 x.2.2 y.2.1 y.2.2) (E.zorichInduction O s) (F.zorichInduction O' t) := by
  obtain ⟨r, E', s', h1, h2⟩ := zorichInduction_spec H E s h.ok
  obtain ⟨r', F', t', g1, g2⟩ := zorichInduction_spec H' F t h.ok'
  rw [h1, g1]
  have ha : (H.abs E' s').Agree (H'.abs F' t') := TopPhase.agree h.ok.valid h2.phase g2.phase h.agree
  have hr : r = r' := Bool.eq_iff_iff.2 ((h2.level.symm.trans (ha.level h2.ok.valid)).trans g2.level)
  exact ⟨hr, h2.ok, g2.ok, Moves.cache (.single (.top h.ok h2)) h.ok h.cache h2.cache, Moves.cache (.single (.top h.ok' g2)) h.ok' h.cache' g2.cache,
    ha.1, ha.2.1, ha.2.2⟩

theorem Twin.setCache {E F : IET T} {s : σ} {t : σ'} (h : Twin H H' E s F t) :
    Twin H H' { E with safCache := some (Verif.safList c (H.unswapped E s)) } s { F with safCache := some (Verif.safList c (H'.unswapped F t)) } t :=
  h.aux rfl rfl rfl rfl .some .some

theorem Twin.saf0 {E F : IET T} {s : σ} {t : σ'} (h : Twin H H' E s F t) :
    RelM (fun x y => x.1 = y.1 ∧ Twin H H' x.2 s y.2 t) (E.saf0 O s) (F.saf0 O' t) := by
  rw [saf0_spec H h.ok h.cache, saf0_spec H' h.ok' h.cache']
  exact ⟨by simp only [h.safList], h.setCache⟩

theorem Twin.safInvariant {E F : IET T} {s : σ} {t : σ'} (h : Twin H H' E s F t) :
    RelM (fun x y => x.1 = y.1 ∧ Twin H H' x.2 s y.2 t) (E.safInvariant O s) (F.safInvariant O' t) := by
  rw [safInvariant_spec H h.ok h.cache, safInvariant_spec H' h.ok' h.cache']
  exact ⟨h.safList, h.setCache⟩

theorem Twin.equations {E F : IET T} {s : σ} {t : σ'} (h : Twin H H' E s F t) : E.boshernitzanEquations O s = F.boshernitzanEquations O' t := by
  rw [boshernitzanEquations_spec H h.ok, boshernitzanEquations_spec H' h.ok', ← h.top]
  simp only [h.agree.transl h.ok.valid]

theorem Twin.bosh (L : PPL) {E F : IET T} {s : σ} {t : σ'} (h : Twin H H' E s F t) :
    RelM (fun x y => x.1 = y.1 ∧ Twin H H' x.2 s y.2 t) (E.boshernitzanNoPeriodicTrajectory L O s) (F.boshernitzanNoPeriodicTrajectory L O' t) := by
  unfold IET.boshernitzanNoPeriodicTrajectory
  refine h.saf0.bind ?_
  rintro ⟨v, E'⟩ ⟨w, F'⟩ ⟨e, h'⟩
  simp only at e h' ⊢
  subst e
  cases v with
  | true => exact ⟨rfl, h'⟩
  | false =>
    simp only [Bool.false_eq_true, if_false, IET.size, ← h'.top]
    by_cases hl : E'.top.length ≤ 1
    · simp only [hl, if_true]; exact ⟨rfl, h'⟩
    · simp only [hl, if_false]
      rw [h'.equations]
      refine (RelM.of_eq rfl).bind ?_
      rintro x _ rfl
      refine (RelM.of_eq rfl).bind ?_
      rintro x _ rfl
      refine (RelM.of_eq rfl).bind ?_
      rintro x _ rfl
      exact ⟨rfl, h'⟩

theorem Twin.noSaddle (L : PPL) {E F : IET T} {s : σ} {t : σ'} (h : Twin H H' E s F t) :
    E.boshernitzanNoSaddleConnection L O s = F.boshernitzanNoSaddleConnection L O' t := by
  have e2 : E.labelToCoefficients O s = F.labelToCoefficients O' t := by
    rw [labelToCoefficients_spec H h.ok, labelToCoefficients_spec H' h.ok', ← h.top]
    refine congrArg _ (List.map_congr_left (fun a ha => ?_))
    rw [h.len a ha]
  have e3 : ∀ t b m, E.translation t b m = F.translation t b m := by
    intro t b m
    simp only [IET.translation, h.top, h.bottom]
  simp only [IET.boshernitzanNoSaddleConnection, IET.boshernitzanNoSaddleConnection₂, IET.boshernitzanSaddleConnectionValues, IET.size, h.equations, e2, e3,
    h.top, h.bottom]
  rfl

/-- An IET with the same lengths. -/
theorem Twin.fresh {E F : IET T} {s : σ} {t : σ'} (h : Twin H H' E s F t) {top bottom : List Label} (htop : ∀ a ∈ top, a ∈ E.top)
    (hv : (⟨top, bottom, H.len s⟩ : AIET T).Valid) : Twin H H' (IET.fresh top bottom) s (IET.fresh top bottom) t where
  ok := ⟨h.ok.inv, h.ok.stack, fun a ha => h.ok.dom a (htop a ha), hv, h.ok.nonneg⟩
  ok' := ⟨h.ok'.inv, h.ok'.stack, fun a ha => h.ok'.dom a (h.top ▸ htop a ha),
    AIET.Agree.valid (E := ⟨top, bottom, H.len s⟩) ⟨rfl, rfl, fun a ha => h.len a (htop a ha)⟩ hv, h.ok'.nonneg⟩
  cache := .none rfl
  cache' := .none rfl
  top := rfl
  bottom := rfl
  len a ha := h.len a (htop a ha)

theorem Twin.reduce {E F : IET T} {s : σ} {t : σ'} (h : Twin H H' E s F t) :
    RelM (fun x y => (∀ R ∈ x.1, Twin H H' R s R t) ∧ x.1 = y.1 ∧ Twin H H' x.2 s y.2 t) (E.reduce O s) (F.reduce O' t) := by
  rcases reduce_spec H E s h.ok with ⟨hr, hirr⟩ | ⟨k, hr, hcut⟩
  · rcases reduce_spec H' F t h.ok' with ⟨hr', hirr'⟩ | ⟨k', hr', hcut'⟩
    · rw [hr, hr']
      exact ⟨fun R hR => by simp at hR, rfl, h⟩
    · exfalso
      refine hirr k' hcut'.1 ?_ ?_
      · show k' < E.top.length
        rw [h.top]; exact hcut'.lt
      · show (E.top.take k').Perm (E.bottom.take k')
        rw [h.top, h.bottom]; exact (show (F.bottom.take k').Perm (F.top.take k') from (hcut'.valid_left h.ok'.valid).perm).symm
  · have hr' : F.reduce O' t = .ok (some (IET.fresh (E.top.drop k) (E.bottom.drop k)),
        { F with top := E.top.take k, bottom := E.bottom.take k, safCache := none }) := by
      rcases reduce_spec H' F t h.ok' with ⟨hr', hirr'⟩ | ⟨k', hr', hcut'⟩
      · exfalso
        refine hirr' k hcut.1 ?_ ?_
        · show k < F.top.length
          rw [← h.top]; exact hcut.lt
        · show (F.top.take k).Perm (F.bottom.take k)
          rw [← h.top, ← h.bottom]; exact (show (E.bottom.take k).Perm (E.top.take k) from (hcut.valid_left h.ok.valid).perm).symm
      · have hk : k = k' := by
          rcases lt_trichotomy k k' with hlt | rfl | hlt
          · exfalso
            refine hcut'.minimal k hcut.pos hlt ?_
            show (F.top.take k).Perm (F.bottom.take k)
            rw [← h.top, ← h.bottom]; exact (show (E.bottom.take k).Perm (E.top.take k) from (hcut.valid_left h.ok.valid).perm).symm
          · rfl
          · exfalso
            refine hcut.minimal k' hcut'.pos hlt ?_
            show (E.top.take k').Perm (E.bottom.take k')
            rw [h.top, h.bottom]; exact (show (F.bottom.take k').Perm (F.top.take k') from (hcut'.valid_left h.ok'.valid).perm).symm
        subst hk
        rw [hr', h.top, h.bottom]
    rw [hr, hr']
    have hvr := hcut.valid_right h.ok.valid
    have hvl := hcut.valid_left h.ok.valid
    refine ⟨fun R hR => ?_, rfl, ?_⟩
    · simp only [Option.mem_def, Option.some.injEq] at hR
      rw [← hR]; exact h.fresh (fun a ha => List.mem_of_mem_drop ha) hvr
    · exact (h.fresh (top := E.top.take k) (bottom := E.bottom.take k) (fun a ha => List.mem_of_mem_take ha) hvl).aux rfl rfl rfl rfl (.none rfl) (.none rfl)

theorem Twin.cmp2 {E F : IET T} {s : σ} {t : σ'} (h : Twin H H' E s F t) {a b : Label} (ha : a ∈ E.top) (hb : b ∈ E.top) :
    RelM (fun x y => x = 0 ↔ y = 0) (O.cmp2 a b s) (O'.cmp2 a b t) := by
  obtain ⟨r, h1, h2⟩ := H.cmp2_spec s a b h.ok.inv (h.ok.dom a ha) (h.ok.dom b hb)
  obtain ⟨r', g1, g2⟩ := H'.cmp2_spec t a b h.ok'.inv (h.ok'.dom a (h.top ▸ ha)) (h.ok'.dom b (h.top ▸ hb))
  rw [h1, g1]
  show r = 0 ↔ r' = 0
  rw [h2, g2, h.len a ha, h.len b hb]

theorem Twin.merge {E F E' F' : IET T} {s : σ} {t : σ'} (h : Twin H H' E s F t) (hE : H.Ok E' s) (hF : H'.Ok F' t) (hc : H.CacheOk E' s) (hc' : H'.CacheOk F' t)
    (hsub : ∀ a ∈ E'.top, a ∈ E.top) (h1 : E'.top = F'.top) (h2 : E'.bottom = F'.bottom) : Twin H H' E' s F' t :=
  ⟨hE, hF, hc, hc', h1, h2, fun a ha => h.len a (hsub a ha)⟩

theorem Twin.induceFinish {L : PPL} (hL : L.Lawful) (found : Bool) {E F : IET T} {s : σ} {t : σ'} (h : Twin H H' E s F t) (hsize : E.top.length ≠ 1)
    (hE : ∀ st E', E.induceFinish L O found s = .ok (st, E') → H.Good E' s) (hF : ∀ st F', F.induceFinish L O' found t = .ok (st, F') → H'.Good F' t) :
    RelM (fun x y => x.1 = y.1 ∧ (∀ R ∈ x.1.additional, Twin H H' R s R t) ∧ Twin H H' x.2 s y.2 t)
      (E.induceFinish L O found s) (F.induceFinish L O' found t) := by
  unfold IET.induceFinish at hE hF ⊢
  rcases reduce_spec H E s h.ok with ⟨hr, hirr⟩ | ⟨k, hr, -⟩
  · obtain ⟨⟨R', F'⟩, hr', h1, h2, h3⟩ := h.reduce.ok_left hr
    simp only at h1 h2 h3
    subst h2
    rw [hr] at hE ⊢
    rw [hr'] at hF ⊢
    simp only [bind, Except.bind] at hE hF ⊢
    cases htop : E.top with
    | nil => exact absurd htop h.ok.valid.ne_nil
    | cons x top =>
      cases hbot : E.bottom with
      | nil => exact absurd hbot h.ok.valid.inv.ne_nil
      | cons y bottom =>
        have htop' : F'.top = x :: top := by rw [← h3.top, htop]
        have hbot' : F'.bottom = y :: bottom := by rw [← h3.bottom, hbot]
        simp only [htop', hbot', htop, hbot] at hE hF ⊢
        have hx : x ∈ E.top := by rw [htop]; simp
        have hy : y ∈ E.top := h.ok.valid.perm.mem_iff.1 (by show y ∈ E.bottom; rw [hbot]; simp)
        obtain ⟨u, hu1, hu2⟩ := H.cmp2_spec s x y h.ok.inv (h.ok.dom x hx) (h.ok.dom y hy)
        obtain ⟨v, hv1, huv⟩ := (h3.cmp2 hx hy).ok_left hu1
        rw [hu1] at hE ⊢
        rw [hv1] at hF ⊢
        simp only at hE hF ⊢
        by_cases hu : u = 0
        · simp only [hu, huv.1 hu, if_true] at hE hF ⊢
          refine ⟨rfl, fun R hR => by simp at hR, ?_⟩
          have g1 := hE _ _ rfl
          have g2 := hF _ _ rfl
          exact h3.merge g1.ok g2.ok g1.cache g2.cache (fun a ha => by rw [htop]; exact List.mem_cons_of_mem _ ha) rfl rfl
        · have hv : ¬ v = 0 := fun e => hu (huv.2 e)
          simp only [hu, hv, if_false]
          cases assertM !found with
          | error e => exact rfl
          | ok _ =>
          refine (h3.bosh L).bind ?_
          rintro ⟨b, E'⟩ ⟨b', F''⟩ ⟨e, h4⟩
          simp only at e h4 ⊢
          subst e
          cases b
          · exact ⟨rfl, fun R hR => by simp at hR, h4⟩
          · exact ⟨rfl, fun R hR => by simp at hR, h4⟩
  · obtain ⟨⟨R', F'⟩, hr', h1, h2, h3⟩ := h.reduce.ok_left hr
    simp only at h1 h2 h3
    subst h2
    rw [hr, hr']
    simp only [bind, Except.bind]
    rw [← h3.top, ← h3.bottom]
    simp only
    split
    · exact ⟨rfl, h1, h3⟩
    · exact rfl

/-- The loop: unless the tracker reports something for one of the two. -/
theorem Twin.induceLoop (z : Bool) : ∀ (n : ℕ) {E F : IET T} {s : σ} {t : σ'}, Twin H H' E s F t → H.Good E s → H'.Good F t →
    ∃ x y, IET.induceLoop O z n E s = .ok x ∧ IET.induceLoop O' z n F t = .ok y ∧
      (x.1 = .autoSimilar ∨ y.1 = .autoSimilar ∨ (x.1 = y.1 ∧ Twin H H' x.2.1 x.2.2 y.2.1 y.2.2))
  | 0, E, F, s, t, h, _, _ => ⟨_, _, rfl, rfl, .inr (.inr ⟨rfl, h⟩)⟩
  | n + 1, E, F, s, t, h, hE, hF => by
    obtain ⟨e, E', s', q1, q2⟩ := induceLoop_spec H z (n + 1) E s hE
    obtain ⟨e', F', t', p1, p2⟩ := induceLoop_spec H' z (n + 1) F t hF
    refine ⟨_, _, q1, p1, ?_⟩
    unfold IET.induceLoop at q1 p1
    obtain ⟨r, E₁, a1, a2, a3, a4, a5, a6, a7⟩ := trackStep_spec H z h.ok h.cache hE.track
    obtain ⟨r', F₁, b1, b2, b3, b4, b5, b6, b7⟩ := trackStep_spec H' z h.ok' h.cache' hF.track
    rw [a1] at q1
    rw [b1] at p1
    simp only [bind, Except.bind] at q1 p1
    cases r with
    | true => simp only [if_true] at q1; cases q1; exact .inl rfl
    | false =>
    cases r' with
    | true => simp only [if_true] at p1; cases p1; exact .inr (.inl rfl)
    | false =>
    simp only [Bool.false_eq_true, if_false] at q1 p1
    have h₁ : Twin H H' E₁ s F₁ t := h.aux a2 a3 b2 b3 a5 b5
    obtain ⟨v, E₂, s₂, z1, z2⟩ := zorichInduction_spec H E₁ s h₁.ok
    obtain ⟨w, F₂, t₂, y1, y2⟩ := zorichInduction_spec H' F₁ t h₁.ok'
    obtain ⟨e1, h₂⟩ := h₁.zorich.of_ok z1 y1
    simp only at e1 h₂
    subst e1
    rw [z1] at q1
    rw [y1] at p1
    simp only at q1 p1
    have tr2 : H.TrackInv Steps E₂ s₂ := (a6 rfl).steps_weak h₁.ok.valid z2.dom z2.tracker z2.run.steps
    have tr2' : H'.TrackInv Steps F₂ t₂ := (b6 rfl).steps_weak h₁.ok'.valid y2.dom y2.tracker y2.run.steps
    cases v with
    | true => simp only [if_true] at q1 p1; cases q1; cases p1; exact .inr (.inr ⟨rfl, h₂⟩)
    | false =>
    simp only [Bool.false_eq_true, if_false] at q1 p1
    obtain ⟨v, E₃, s₃, z3, z4⟩ := zorichInduction_spec H E₂.swap s₂ h₂.swap.ok
    obtain ⟨w, F₃, t₃, y3, y4⟩ := zorichInduction_spec H' F₂.swap t₂ h₂.swap.ok'
    obtain ⟨e1, h₃⟩ := h₂.swap.zorich.of_ok z3 y3
    simp only at e1 h₃
    subst e1
    rw [z3] at q1
    rw [y3] at p1
    simp only at q1 p1
    cases v with
    | true => simp only [if_true] at q1 p1; cases q1; cases p1; exact .inr (.inr ⟨rfl, h₃.swap⟩)
    | false =>
    simp only [Bool.false_eq_true, if_false] at q1 p1
    obtain ⟨a, b, ha, hb⟩ := z2.ok.valid.heads
    have hlt : H.len s₂ a < H.len s₂ b :=
      lt_of_le_of_ne (z2.final a b ha hb) (fun h3 => by simpa using (z2.ret a b ha hb).mpr h3)
    have hT := transGen_inv (z4.transGen (a := b) (b := a) hb ha hlt)
    obtain ⟨a', b', ha', hb'⟩ := y2.ok.valid.heads
    have hlt' : H'.len t₂ a' < H'.len t₂ b' :=
      lt_of_le_of_ne (y2.final a' b' ha' hb') (fun h3 => by simpa using (y2.ret a' b' ha' hb').mpr h3)
    have hT' := transGen_inv (y4.transGen (a := b') (b := a') hb' ha' hlt')
    have g3 : H.Good E₃.swap s₃ := ⟨h₃.swap.ok, h₃.swap.cache, tr2.steps_strong z2.ok.valid z4.dom (by simpa using z4.tracker) hT⟩
    have g3' : H'.Good F₃.swap t₃ := ⟨h₃.swap.ok', h₃.swap.cache', tr2'.steps_strong y2.ok.valid y4.dom (by simpa using y4.tracker) hT'⟩
    obtain ⟨x, y, i1, i2, i3⟩ := Twin.induceLoop z n h₃.swap g3 g3'
    rw [q1] at i1
    rw [p1] at i2
    cases i1
    cases i2
    exact i3

/-- The outcome is `WITHOUT_PERIODIC_TRAJECTORY_AUTO_SIMILAR`. -/
def ReportsLoop {σ T : Type} (x : M (InductionStep T × IET T × σ)) : Prop :=
  ∃ r, x = .ok r ∧ r.1.result = .withoutPeriodicTrajectoryAutoSimilar

theorem Twin.inducePhase (fuel : ℕ) (limit : ℤ) {E F : IET T} {s : σ} {t : σ'} (h : Twin H H' E s F t) (hE : H.Good E s) (hF : H'.Good F t) :
    (∃ x, E.inducePhase O fuel limit s = .ok x ∧ x.1 = .autoSimilar) ∨ (∃ y, F.inducePhase O' fuel limit t = .ok y ∧ y.1 = .autoSimilar) ∨
    RelM (fun x y => x.1 = y.1 ∧ Twin H H' x.2.1 x.2.2 y.2.1 y.2.2) (E.inducePhase O fuel limit s) (F.inducePhase O' fuel limit t) := by
  unfold IET.inducePhase
  by_cases h0 : limit = 0
  · rw [if_pos h0, if_pos h0]; exact .inr (.inr ⟨rfl, h⟩)
  · rw [if_neg h0, if_neg h0, saf0_spec H h.ok h.cache, saf0_spec H' h.ok' h.cache', h.safList]
    simp only [bind, Except.bind]
    by_cases h1 : limit = -1
    · rw [if_pos h1, if_pos h1]
      obtain ⟨x, y, q1, q2, q3⟩ := Twin.induceLoop (decide (∀ x ∈ Verif.safList c (H'.abs F t), x = 0)) fuel h.setCache hE.setCache hF.setCache
      rw [q1, q2]
      simp only
      rcases q3 with q3 | q3 | ⟨q3, q4⟩
      · refine .inl ⟨x, ?_, q3⟩
        rw [if_neg (by rw [q3]; simp)]; rfl
      · refine .inr (.inl ⟨y, ?_, q3⟩)
        rw [if_neg (by rw [q3]; simp)]; rfl
      · right; right
        rw [q3]
        by_cases h3 : y.1 = .exhausted
        · rw [if_pos h3, if_pos h3]; exact rfl
        · rw [if_neg h3, if_neg h3]; exact ⟨q3, q4⟩
    · rw [if_neg h1, if_neg h1]
      obtain ⟨x, y, q1, q2, q3⟩ := Twin.induceLoop (decide (∀ x ∈ Verif.safList c (H'.abs F t), x = 0)) limit.toNat h.setCache hE.setCache hF.setCache
      rw [q1, q2]
      rcases q3 with q3 | q3 | q3
      · exact .inl ⟨x, rfl, q3⟩
      · exact .inr (.inl ⟨y, rfl, q3⟩)
      · exact .inr (.inr q3)

theorem Twin.induce {L : PPL} (hL : L.Lawful) (fuel : ℕ) (limit : ℤ) {E F : IET T} {s : σ} {t : σ'} (h : Twin H H' E s F t) (hE : H.Good E s) (hF : H'.Good F t) :
    ReportsLoop (E.induce L O fuel limit s) ∨ ReportsLoop (F.induce L O' fuel limit t) ∨
    RelM (fun x y => x.1 = y.1 ∧ (∀ R ∈ x.1.additional, Twin H H' R x.2.2 R y.2.2) ∧ Twin H H' x.2.1 x.2.2 y.2.1 y.2.2)
      (E.induce L O fuel limit s) (F.induce L O' fuel limit t) := by
  unfold IET.induce
  simp only [IET.size, ← h.top]
  by_cases h1 : E.top.length = 1
  · simp only [h1, if_true]
    exact .inr (.inr ⟨rfl, fun R hR => by simp at hR, h⟩)
  · simp only [h1, if_false]
    rcases h.inducePhase fuel limit hE hF with ⟨⟨e, E₁, s₁⟩, h2, h3⟩ | ⟨⟨e, F₁, t₁⟩, h2, h3⟩ | hp
    · left
      simp only at h3
      rw [h2, h3]
      exact ⟨_, rfl, rfl⟩
    · right; left
      simp only at h3
      rw [h2, h3]
      exact ⟨_, rfl, rfl⟩
    · rcases inducePhase_spec H fuel limit E s hE with ⟨he, -⟩ | ⟨e, E₁, s₁, he, hm, hc, m1, m2, m3, -⟩
      · right; right
        rw [he] at hp ⊢
        cases hF : IET.inducePhase O' fuel limit F t with
        | ok b => rw [hF] at hp; exact hp.elim
        | error e => rw [hF] at hp; exact hp
      · obtain ⟨⟨e', F₁, t₁⟩, hF', h2, h3⟩ := hp.ok_left he
        rcases inducePhase_spec H' fuel limit F t hF with ⟨he', -⟩ | ⟨e', F₁, t₁, he', hm', hc', k1, k2, k3, -⟩
        · rw [hF'] at he'; cases he'
        rw [hF'] at he'
        cases he'
        simp only at h2 h3
        subst h2
        rw [he, hF']
        simp only [bind, Except.bind]
        by_cases hauto : e = .autoSimilar
        · left
          rw [hauto]
          exact ⟨_, rfl, rfl⟩
        · right; right
          simp only [hauto, if_false]
          have hl : E₁.top.length ≠ 1 := by
            have := (hm.top_perm).length_eq
            simp only at this
            omega
          have hl' : F₁.top.length ≠ 1 := by rw [← h3.top]; exact hl
          have gE : ∀ st E', E₁.induceFinish L O (decide (e = .found)) s₁ = .ok (st, E') → H.Good E' s₁ := by
            intro st E' hst
            have u1 : H.TrackInv Steps E₁ s₁ := by
              cases e with
              | exhausted => exact (m1 rfl).1.weaken
              | found => exact (m2 rfl).1
              | autoSimilar => exact absurd rfl hauto
            have u2 : decide (e = .found) = false → H.TrackInv (Relation.TransGen RauzyStep) E₁ s₁ := by
              intro hf
              cases e with
              | exhausted => exact (m1 rfl).1
              | found => simp at hf
              | autoSimilar => exact absurd rfl hauto
            obtain ⟨st', E'', g1, _, g3, _⟩ := induceFinish_spec H hL (found := decide (e = .found)) h3.ok hc u1 hl u2
              (fun hf => (m2 (by simpa using hf)).2)
            rw [hst] at g1
            cases g1
            exact g3
          have gF : ∀ st F', F₁.induceFinish L O' (decide (e = .found)) t₁ = .ok (st, F') → H'.Good F' t₁ := by
            intro st E' hst
            have u1 : H'.TrackInv Steps F₁ t₁ := by
              cases e with
              | exhausted => exact (k1 rfl).1.weaken
              | found => exact (k2 rfl).1
              | autoSimilar => exact absurd rfl hauto
            have u2 : decide (e = .found) = false → H'.TrackInv (Relation.TransGen RauzyStep) F₁ t₁ := by
              intro hf
              cases e with
              | exhausted => exact (k1 rfl).1
              | found => simp at hf
              | autoSimilar => exact absurd rfl hauto
            obtain ⟨st', E'', g1, _, g3, _⟩ := induceFinish_spec H' hL (found := decide (e = .found)) h3.ok' hc' u1 hl' u2
              (fun hf => (k2 (by simpa using hf)).2)
            rw [hst] at g1
            cases g1
            exact g3
          refine (h3.induceFinish hL (decide (e = .found)) hl gE gF).bind ?_
          rintro ⟨st, E'⟩ ⟨st', F'⟩ ⟨h4, h5, h6⟩
          exact ⟨h4, h5, h6⟩

/-- The call is `induce` and it reports `WITHOUT_PERIODIC_TRAJECTORY_AUTO_SIMILAR`. -/
def Op.FindsLoop (L : PPL) (O : LengthsOps σ T) (fuel : ℕ) (op : Op) (w : World σ T) : Prop :=
  ∃ i limit E, op = .induce i limit ∧ w.pieces[i]? = some E ∧ ReportsLoop (E.induce L O fuel limit w.lengths)

/-- All IETs of the two worlds have the same labels and lengths. -/
structure TwinWorld (H : LawfulLengths O c ε) (H' : LawfulLengths O' c ε') (w : World σ T) (w' : World σ' T) : Prop where
  ok : H.WorldOk w
  ok' : H'.WorldOk w'
  twin : List.Forall₂ (fun E F => Twin H H' E w.lengths F w'.lengths) w.pieces w'.pieces

theorem Twin.call {L : PPL} (hL : L.Lawful) (fuel : ℕ) (op : Op) {E F : IET T} {s : σ} {t : σ'} (h : Twin H H' E s F t) (hE : H.Good E s) (hF : H'.Good F t)
    (hl : ∀ i limit, op = .induce i limit → ¬ ReportsLoop (E.induce L O fuel limit s) ∧ ¬ ReportsLoop (F.induce L O' fuel limit t)) :
    RelM (fun x y => x.1 = y.1 ∧ (∀ R ∈ x.1, Twin H H' R x.2.2 R y.2.2) ∧ Twin H H' x.2.1 x.2.2 y.2.1 y.2.2)
      (op.call L O fuel E s) (op.call L O' fuel F t) := by
  cases op with
  | zorichInduction i =>
    refine h.zorich.bind ?_
    rintro ⟨r, E', s'⟩ ⟨r', F', t'⟩ ⟨h1, h2⟩
    exact ⟨rfl, fun R hR => by simp at hR, h2⟩
  | swap i => exact ⟨rfl, fun R hR => by simp at hR, h.swap⟩
  | reduce i =>
    refine h.reduce.bind ?_
    rintro ⟨r, E'⟩ ⟨r', F'⟩ ⟨h1, h2, h3⟩
    simp only at h1 h2 h3
    subst h2
    exact ⟨rfl, fun R hR => h1 R (by simpa using hR), h3⟩
  | induce i limit =>
    obtain ⟨l1, l2⟩ := hl i limit rfl
    refine ((h.induce hL fuel limit hE hF).resolve_left l1 |>.resolve_left l2).bind ?_
    rintro ⟨r, E', s'⟩ ⟨r', F', t'⟩ ⟨h1, h2, h3⟩
    simp only at h1 h2 h3
    subst h1
    exact ⟨rfl, fun R hR => h2 R (by simpa using hR), h3⟩
  | safInvariant i =>
    refine h.safInvariant.bind ?_
    rintro ⟨r, E'⟩ ⟨r', F'⟩ ⟨h1, h3⟩
    exact ⟨rfl, fun R hR => by simp at hR, h3⟩
  | boshernitzanNoPeriodicTrajectory i =>
    refine (h.bosh L).bind ?_
    rintro ⟨r, E'⟩ ⟨r', F'⟩ ⟨h1, h3⟩
    exact ⟨rfl, fun R hR => by simp at hR, h3⟩

theorem TwinWorld.get {w : World σ T} {w' : World σ' T} (h : TwinWorld H H' w w') {i : ℕ} {E : IET T} (hE : w.pieces[i]? = some E) :
    ∃ F, w'.pieces[i]? = some F ∧ Twin H H' E w.lengths F w'.lengths := by
  have hi : i < w.pieces.length := (List.getElem?_eq_some_iff.1 hE).1
  have hi' : i < w'.pieces.length := by have := h.twin.length_eq; omega
  refine ⟨_, List.getElem?_eq_getElem hi', ?_⟩
  have := (List.forall₂_iff_get.1 h.twin).2 i hi hi'
  rw [List.get_eq_getElem, List.get_eq_getElem, (List.getElem?_eq_some_iff.1 hE).2] at this
  exact this

theorem TwinWorld.exec {L : PPL} (hL : L.Lawful) (fuel : ℕ) (op : Op) {w : World σ T} {w' : World σ' T} (h : TwinWorld H H' w w')
    (hl : ¬ op.FindsLoop L O fuel w) (hl' : ¬ op.FindsLoop L O' fuel w') :
    RelM (TwinWorld H H') (op.exec L O fuel w) (op.exec L O' fuel w') := by
  unfold Op.exec
  cases hE : w.pieces[op.index]? with
  | none =>
    have : w'.pieces[op.index]? = none := by
      have := h.twin.length_eq
      rw [List.getElem?_eq_none_iff] at hE ⊢; omega
    rw [this]; exact h
  | some E =>
    obtain ⟨F, hF, hs⟩ := h.get hE
    have hEm := List.mem_of_getElem? hE
    have hFm := List.mem_of_getElem? hF
    have hc := hs.call hL fuel op (h.ok.good E hEm) (h.ok'.good F hFm) (by
      intro i limit e
      subst e
      exact ⟨fun hr => hl ⟨i, limit, E, rfl, hE, hr⟩, fun hr => hl' ⟨i, limit, F, rfl, hF, hr⟩⟩)
    have hx := Op.exec_spec H hL fuel op w h.ok
    have hx' := Op.exec_spec H' hL fuel op w' h.ok'
    unfold Op.exec at hx hx'
    rw [hE] at hx
    rw [hF] at hx' ⊢
    simp only at hx hx' ⊢
    cases h1 : op.call L O fuel E w.lengths with
    | error e =>
      rw [h1] at hc
      cases h2 : op.call L O' fuel F w'.lengths with
      | error e' => rw [h2] at hc; exact hc
      | ok b => rw [h2] at hc; exact hc.elim
    | ok r =>
      obtain ⟨r', h2, h3⟩ := hc.ok_left h1
      rw [h1] at hx
      rw [h2] at hx' ⊢
      obtain ⟨new, E', s'⟩ := r
      obtain ⟨new', F', t'⟩ := r'
      simp only [bind, Except.bind, pure, Except.pure] at hx hx' h3 ⊢
      obtain ⟨e1, e2, e3⟩ := h3
      subst e1
      obtain ⟨w1, hw, hspec⟩ := hx.resolve_left (fun q => by cases q.1)
      obtain ⟨w1', hw', hspec'⟩ := hx'.resolve_left (fun q => by cases q.1)
      cases hw
      cases hw'
      refine ⟨hspec.ok, hspec'.ok, ?_⟩
      simp only
      refine List.rel_append (R := fun E F => Twin H H' E s' F t') ?_ ?_
      · refine forall₂_set h.twin ?_ e3
        intro j A B hj hA hB hR
        obtain ⟨q1, q2⟩ := hspec.others j A hj hA
        obtain ⟨q1', q2'⟩ := hspec'.others j B hj hB
        have g1 := hspec.ok.good A (List.mem_of_getElem? q1)
        have g2 := hspec'.ok.good B (List.mem_of_getElem? q1')
        refine ⟨g1.ok, g2.ok, g1.cache, g2.cache, hR.top, hR.bottom, fun a ha => ?_⟩
        have u1 := q2 a ha
        have u2 := q2' a (hR.top ▸ ha)
        simp only at u1 u2
        rw [u1, u2]; exact hR.len a ha
      · rw [List.forall₂_same]
        exact e2

end

end Verif
