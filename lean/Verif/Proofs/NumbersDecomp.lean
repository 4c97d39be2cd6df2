import Verif.Proofs.NumbersSim

/-!
# The same decomposition, with other numbers in another implementation of lengths
-/

namespace Verif

set_option linter.unusedSectionVars false

variable {σ σ' T T' ε ε' : Type} [CommRing T] [LinearOrder T] [IsStrictOrderedRing T] [CommRing T'] [LinearOrder T'] [IsStrictOrderedRing T']
  {O : LengthsOps σ T} {O' : LengthsOps σ' T'} {d d' : ℕ} {c : T →+ (Fin d → ℚ)} {c' : T' →+ (Fin d' → ℚ)} {φ : NumberMap T T'}
  {H : LawfulLengths O c ε} {H' : LawfulLengths O' c' ε'}

/-- The wrapped lengths know the same connections. -/
def SameConns (ε ε' : Type) (e : List Ctx × ConnMap × ε) (e' : List Ctx × ConnMap × ε') : Prop := e.1 = e'.1 ∧ e.2.1 = e'.2.1

theorem sameConns_mv (ctx : Ctx) (a b : Label) (e : List Ctx × ConnMap × ε) (e' : List Ctx × ConnMap × ε') (h : SameConns ε ε' e e') :
    SameConns ε ε' ((LWC.lawful H).mv ctx a b e) ((LWC.lawful H').mv ctx a b e') := by
  obtain ⟨h1, h2⟩ := h
  refine ⟨h1, ?_⟩
  simp only [LWC.lawful]
  rw [h1, h2]

/-- The IETs of two decompositions are in the same state. -/
abbrev NumC (φ : NumberMap T T') (H : LawfulLengths O c ε) (H' : LawfulLengths O' c' ε') (E : IET T) (s : LWC σ) (F : IET T') (t : LWC σ') : Prop :=
  Num φ (LWC.lawful H) (LWC.lawful H') (SameConns ε ε') E s F t

section

variable {E : IET T} {F : IET T'} {s : LWC σ} {t : LWC σ'} (hc : ∀ x, c x = 0 → x = 0) (hc' : ∀ x, c' x = 0 → x = 0)

include hc hc' in
theorem NumC.cost (h : NumC φ H H' E s F t) :
    RelM (fun x y => x.1 = y.1 ∧ NumC φ H H' x.2 s y.2 t) (Decomp.boshernitzanCost O E s) (Decomp.boshernitzanCost O' F t) := by
  unfold Decomp.boshernitzanCost
  refine (Num.safInvariant hc hc' h).bind ?_
  rintro ⟨v, E'⟩ ⟨w, F'⟩ ⟨h1, h2⟩
  refine ⟨?_, h2⟩
  simp only [List.all_eq_true, decide_eq_true_eq, h1]

include hc hc' in
theorem NumC.chunks {L : PPL} (hL : L.Lawful) (cost : Option ℤ) : ∀ (n : ℕ) (limit : ℤ) {E : IET T} {F : IET T'} {s : LWC σ} {t : LWC σ'}, NumC φ H H' E s F t →
    RelM (fun x y => y.1 = x.1.renumber φ ∧ (∀ R ∈ x.1.additional, NumC φ H H' R x.2.2 (R.renumber φ) y.2.2) ∧ NumC φ H H' x.2.1 x.2.2 y.2.1 y.2.2)
      (Decomp.chunks L O cost n limit E s) (Decomp.chunks L O' cost n limit F t)
  | 0, _, _, _, _, _, _ => rfl
  | n + 1, limit, E, F, s, t, h => by
    unfold Decomp.chunks
    refine (Num.induce hc hc' sameConns_mv hL 0 _ h).bind ?_
    rintro ⟨st, E', s'⟩ ⟨st', F', t'⟩ ⟨h1, h2, h3⟩
    simp only at h1 h2 h3
    subst h1
    simp only
    by_cases hr : st.result = .limitReached ∧ limit - Decomp.chunkSize cost limit ≠ 0
    · have hr' : (st.renumber φ).result = .limitReached ∧ limit - Decomp.chunkSize cost limit ≠ 0 := hr
      rw [if_pos hr, if_pos hr']
      exact NumC.chunks hL cost n _ h3
    · have hr' : ¬ ((st.renumber φ).result = .limitReached ∧ limit - Decomp.chunkSize cost limit ≠ 0) := hr
      rw [if_neg hr, if_neg hr']
      exact ⟨rfl, h2, h3⟩

/-- The state of the lengths matters only for the lengths of the labels. -/
theorem NumC.change {s' : LWC σ} {t' : LWC σ'} (h : NumC φ H H' E s F t)
    (h1 : s'.inner = s.inner) (h2 : s'.conns.keys = s.conns.keys) (h3 : s'.stack = s.stack)
    (h1' : t'.inner = t.inner) (h2' : t'.conns.keys = t.conns.keys) (h3' : t'.stack = t.stack)
    (h4 : s'.others = t'.others) (h5 : s'.conns = t'.conns) : NumC φ H H' E s' F t' := by
  refine Num.frame h (LWC.ok_congr h.ok h1 h3 h2) (LWC.ok_congr h.ok' h1' h3' h2') ?_ ?_ ?_ ?_ ⟨h4, h5⟩
  · funext a; simp only [LWC.lawful, h1, h2]
  · funext a; simp only [LWC.lawful, h1', h2']
  · intro a _; simp only [LWC.lawful, h1]
  · intro a _; simp only [LWC.lawful, h1']

end

/-- Decompositions in the same state. -/
def Decomp.Num (φ : NumberMap T T') (H : LawfulLengths O c ε) (H' : LawfulLengths O' c' ε') (D : Decomp σ T) (D' : Decomp σ' T') : Prop :=
  D.Match (fun E F => NumC φ H H' E D.lengths F D'.lengths) D'

section

variable {P P' : Type} [CommRing P] [LinearOrder P] [IsStrictOrderedRing P] [CommRing P'] [LinearOrder P'] [IsStrictOrderedRing P'] {ι : T →+ P} {ι' : T' →+ P'}
  {A₀ : AIET T} {A₀' : AIET T'} {R R' : List Conn} {au au' : Bool → Prop} {D : Decomp σ T} {D' : Decomp σ' T'}
  (hc : ∀ x, c x = 0 → x = 0) (hc' : ∀ x, c' x = 0 → x = 0)

theorem Decomp.Num.comp_or (h : Decomp.Num φ H H' D D') (i : ℕ) : (D.comp i = .error .ub ∧ D'.comp i = .error .ub) ∨
    ∃ x y, D.comp i = .ok x ∧ D'.comp i = .ok y ∧ D.comps[i]? = some x ∧ D'.comps[i]? = some y ∧
      x.Match (fun E F => NumC φ H H' E D.lengths F D'.lengths) y := by
  have hl := h.comps.length_eq
  by_cases hi : i < D.comps.length
  · right
    have hi' : i < D'.comps.length := by omega
    have := (List.forall₂_iff_get.1 h.comps).2 i hi hi'
    exact ⟨_, _, Decomp.comp_ok (List.getElem?_eq_getElem hi), Decomp.comp_ok (List.getElem?_eq_getElem hi'), List.getElem?_eq_getElem hi,
      List.getElem?_eq_getElem hi', this⟩
  · left
    simp only [Decomp.comp]
    rw [List.getElem?_eq_none (by omega), List.getElem?_eq_none (by omega)]
    exact ⟨rfl, rfl⟩

theorem RelM.with_both {α β : Type} {R : α → β → Prop} {x : M α} {y : M β} (h : RelM R x y) : RelM (fun a b => R a b ∧ x = .ok a ∧ y = .ok b) x y := by
  cases x with
  | error e => cases y with
    | error e' => exact h
    | ok b => exact h.elim
  | ok a => cases y with
    | error e' => exact h.elim
    | ok b => exact ⟨h, rfl, rfl⟩

theorem Decomp.conclude_others {i : ℕ} {step : InductionStep T} {st : DStep} {D D' : Decomp σ T} (h : D.conclude i step = .ok (st, D')) :
    D'.lengths.others = D.lengths.others := by
  have hm : ∀ {D D' : Decomp σ T} {l : Label} {g : Conns → Conns}, D.modify l g = .ok D' → D'.lengths.others = D.lengths.others := by
    intro D D' l g h
    simp only [Decomp.modify, bindM_ok] at h
    obtain ⟨m, -, h⟩ := h
    cases h
    rfl
  simp only [Decomp.conclude, bindM_ok] at h
  obtain ⟨x, hx, h⟩ := h
  obtain ⟨r, conn, add⟩ := step
  cases r <;> simp only at h
  case cylinder => cases h; rfl
  case limitReached => cases h; rfl
  case withoutPeriodicTrajectoryBoshernitzan => cases h; rfl
  case withoutPeriodicTrajectoryAutoSimilar => cases h; rfl
  case separatingConnection =>
    cases conn with
    | none => cases h
    | some p => cases add with
      | none => cases h
      | some A =>
        simp only [Decomp.separating, Decomp.registerSeparating, bindM_ok] at h
        obtain ⟨_, _, _, _, _, _, _, _, _, _, _, _, D₁, ⟨_, _, _, _, _, _, _, _, D₂, g1, _, _, _, _, D₃, g2, _, _, _, _, _, _, _, _, g3⟩, h⟩ := h
        cases h
        cases g3
        rw [hm g2, hm g1]
  case nonSeparatingConnection =>
    cases conn with
    | none => cases h
    | some p =>
      simp only [Decomp.nonSeparating, bindM_ok] at h
      obtain ⟨_, _, _, _, _, _, _, _, _, _, _, _, _, _, _, _, D₁, g1, D₂, g2, _, _, D₃, g3, D₄, g4, _, _, _, _, h⟩ := h
      cases h
      rw [hm g4, hm g3, hm g2, hm g1]

include hc hc' in
theorem Decomp.Num.bounded (hι : StrictMono ι) (hι' : StrictMono ι') {L : PPL} (hL : L.Lawful) (h : Decomp.Num φ H H' D D')
    (hinv : D.Inv H ι A₀ R au) (hinv' : D'.Inv H' ι' A₀' R' au') (i : ℕ) {limit : ℤ} (hlimit : limit ≠ -1) :
    RelM (fun x y => x.1 = y.1 ∧ Decomp.Num φ H H' x.2 y.2) (D.decompositionStepBounded L O limit i) (D'.decompositionStepBounded L O' limit i) := by
  unfold Decomp.decompositionStepBounded
  rcases h.comp_or i with ⟨g1, g2⟩ | ⟨x, y, g1, g2, hi, hi', hxy⟩
  · rw [g1, g2]; exact rfl
  · rw [g1, g2, Decomp.Match.others h]
    refine RelM.bind (R := fun a b => a = x ∧ b = y) ⟨rfl, rfl⟩ ?_
    rintro x' y' ⟨e5, e6⟩
    rw [e5, e6]
    clear e5 e6
    rw [hxy.cylinder, hxy.keane]
    refine (RelM.refl _).bind ?_
    rintro ⟨⟩ _ -
    have hx := List.mem_of_getElem? hi
    have hy := List.mem_of_getElem? hi'
    have hg : (LWC.lawful H).Good x.iet { D.lengths with others := D'.others i } := LWC.good_congr (hinv.good x hx) rfl rfl rfl
    have hg' : (LWC.lawful H').Good y.iet { D'.lengths with others := D'.others i } := LWC.good_congr (hinv'.good y hy) rfl rfl rfl
    have hs : NumC φ H H' x.iet { D.lengths with others := D'.others i } y.iet { D'.lengths with others := D'.others i } :=
      NumC.change hxy.iet rfl rfl rfl rfl rfl rfl rfl h.conns
    have e1 := boshernitzanCost_spec H hg
    obtain ⟨⟨cost, F₁⟩, e2, e3, e4⟩ := (NumC.cost hc hc' hs).ok_left e1
    have e1' := boshernitzanCost_spec H' hg'
    rw [e2] at e1'
    dsimp only at e1 e2 e3 e4 e1' ⊢
    rw [e3] at e1
    rw [e1, e2]
    refine RelM.bind (R := fun a b => a = (cost, _) ∧ b = (cost, F₁)) ⟨rfl, rfl⟩ ?_
    rintro x' y' ⟨e5, e6⟩
    rw [e5, e6]
    clear e5 e6
    simp only
    have hgE := hg.setCache
    have hgF : (LWC.lawful H').Good F₁ { D'.lengths with others := D'.others i } := by
      have := hg'.setCache
      simp only [Except.ok.injEq, Prod.mk.injEq] at e1'
      rw [e1'.2]
      exact this
    have hcost : ∀ v, cost = some v → 0 < v := by
      intro v hv
      rw [← e3] at hv
      split at hv
      · cases hv
      · cases hv; norm_num
    obtain ⟨step, E', s', k1, -, k3, k4, k5, -⟩ := chunks_spec H hL cost hcost (limit.toNat + 1) limit _ _ hlimit (Nat.lt_succ_self _) hgE
    obtain ⟨step', F', t', k1', -, k3', k4', k5', -⟩ := chunks_spec H' hL cost hcost (limit.toNat + 1) limit _ _ hlimit (Nat.lt_succ_self _) hgF
    have hF₁ : F₁.top = y.iet.top := by
      simp only [Except.ok.injEq, Prod.mk.injEq] at e1'
      rw [e1'.2]
    obtain ⟨k8, k9, k10⟩ := (NumC.chunks hc hc' hL cost (limit.toNat + 1) limit e4).of_ok k1 k1'
    simp only at k8 k9 k10
    subst k8
    rw [k1', show Decomp.chunks L O cost (limit.toNat + 1) limit _ _ = _ from k1]
    refine RelM.bind (R := fun a b => a = (step, E', s') ∧ b = (step.renumber φ, F', t')) ⟨rfl, rfl⟩ ?_
    rintro x' y' ⟨e5, e6⟩
    rw [e5, e6]
    clear e5 e6
    simp only
    have hl : Decomp.Match (fun E F => NumC φ H H' E s' F t')
        { D.setComp i ⟨E', y.cylinder, x.withoutPeriodicTrajectory, y.keane⟩ with lengths := s' } { D'.setComp i { y with iet := F' } with lengths := t' } := by
      refine ⟨k10.ext.2, ?_⟩
      simp only [Decomp.setComp]
      refine forall₂_set h.comps ?_ ⟨k10.top, k10.bottom, k10.swapped, rfl, hxy.withoutPeriodicTrajectory, rfl, k10⟩
      intro j a b hj ha hb hab
      have hfr : ∀ l ∈ a.iet.top, H.len s'.inner l = H.len D.lengths.inner l := by
        intro l hl
        refine k5 l ?_
        exact pairwise_getElem_ne (fun _ _ h a ha hb => h a hb ha) hinv.disjoint ha hi hj l hl
      have hfr' : ∀ l ∈ b.iet.top, H'.len t'.inner l = H'.len D'.lengths.inner l := by
        intro l hl
        refine k5' l ?_
        rw [hF₁]
        exact pairwise_getElem_ne (fun _ _ h a ha hb => h a hb ha) hinv'.disjoint hb hi' hj l hl
      exact { hab with iet := hab.iet.frame k3.ok k3'.ok k4 k4' hfr hfr' k10.ext }
    have hsm : StepMatch (fun E F => NumC φ H H' E s' F t') step (step.renumber φ) := by
      refine ⟨rfl, rfl, ?_⟩
      cases hA : step.additional with
      | none => exact .inl ⟨rfl, by simp only [InductionStep.renumber, hA, Option.map_none]⟩
      | some A => exact .inr ⟨A, A.renumber φ, rfl, by simp only [InductionStep.renumber, hA, Option.map_some], rfl, rfl, rfl, k9 A hA⟩
    refine (hl.conclude i hsm).with_both.mono ?_
    rintro ⟨st, D₁⟩ ⟨st', D₁'⟩ ⟨⟨q1, q2⟩, q3, q4⟩
    refine ⟨q1, ?_⟩
    obtain ⟨l1, l2, l3⟩ := Decomp.conclude_lengths q3
    obtain ⟨l1', l2', l3'⟩ := Decomp.conclude_lengths q4
    have o1 := Decomp.conclude_others q3
    have o2 := Decomp.conclude_others q4
    simp only at l1 l2 l3 l1' l2' l3' o1 o2
    have hco : D₁.lengths.others = D₁'.lengths.others := by rw [o1, o2]; exact k10.ext.1
    exact q2.mono (fun a _ b _ hab => NumC.change hab l1 l2 l3 l1' l2' l3' hco q2.conns)

include hc hc' in
theorem Decomp.Num.unlimited (hι : StrictMono ι) (hι' : StrictMono ι') {L : PPL} (hL : L.Lawful) {cost : Option ℤ}
    (hcost : ∀ v, cost = some v → 0 ≤ v) {i : ℕ} : ∀ (n : ℕ) (limit : ℤ) {D : Decomp σ T} {D' : Decomp σ' T'}, 0 ≤ limit → Decomp.Num φ H H' D D' →
    (∃ R au, D.Inv H ι A₀ R au) → (∃ R au, D'.Inv H' ι' A₀' R au) →
    RelM (fun x y => x.1 = y.1 ∧ Decomp.Num φ H H' x.2 y.2) (Decomp.unlimited L O cost i n limit D) (Decomp.unlimited L O' cost i n limit D')
  | 0, _, _, _, _, _, _, _ => rfl
  | n + 1, limit, D, D', hlim, h, ⟨_, _, hinv⟩, ⟨_, _, hinv'⟩ => by
    unfold Decomp.unlimited
    refine (h.bounded hc hc' hι hι' hL hinv hinv' i (by omega)).with_both.bind ?_
    rintro ⟨st, D₁⟩ ⟨st', D₁'⟩ ⟨⟨e, h1⟩, h2, h2'⟩
    simp only at e h1
    subst e
    simp only
    by_cases hr : st.result = .limitReached
    · have hn : ¬ st.result ≠ .limitReached := fun g => g hr
      rw [if_neg hn, if_neg hn]
      have hb : ∀ {σ T : Type} [CommRing T] [LinearOrder T] {O : LengthsOps σ T} {D D₁ : Decomp σ T}, D.decompositionStepBounded L O limit i = .ok (st, D₁) →
          D.decompositionStep L O 0 limit i = .ok (st, D₁) := by
        intro σ T _ _ O D D₁ h
        have hl : ¬ limit = -1 := by omega
        unfold Decomp.decompositionStep
        rw [if_neg hl]
        exact h
      have hinv₁ := hinv.step hι hL (hb h2)
      have hinv₁' := hinv'.step hι' hL (hb h2')
      cases cost with
      | some v => exact Decomp.Num.unlimited hι hι' hL hcost n v (hcost v rfl) h1 hinv₁ hinv₁'
      | none =>
        simp only
        by_cases hm : 2 * (limit + 1) ≤ Decomp.intMax
        · rw [if_pos hm, if_pos hm]
          exact Decomp.Num.unlimited hι hι' hL hcost n _ (by omega) h1 hinv₁ hinv₁'
        · rw [if_neg hm, if_neg hm]
          exact rfl
    · rw [if_pos hr, if_pos hr]
      exact ⟨rfl, h1⟩

include hc hc' in
/-- A step. -/
theorem Decomp.Num.step (hι : StrictMono ι) (hι' : StrictMono ι') {L : PPL} (hL : L.Lawful) (h : Decomp.Num φ H H' D D')
    (hinv : D.Inv H ι A₀ R au) (hinv' : D'.Inv H' ι' A₀' R' au') (fuel : ℕ) (limit : ℤ) (i : ℕ) :
    RelM (fun x y => x.1 = y.1 ∧ Decomp.Num φ H H' x.2 y.2) (D.decompositionStep L O fuel limit i) (D'.decompositionStep L O' fuel limit i) := by
  unfold Decomp.decompositionStep
  by_cases hl : limit = -1
  · rw [if_pos hl, if_pos hl]
    rcases h.comp_or i with ⟨g1, g2⟩ | ⟨x, y, g1, g2, hi, hi', hxy⟩
    · rw [g1, g2]; exact rfl
    · rw [g1, g2]
      refine RelM.bind (R := fun a b => a = x ∧ b = y) ⟨rfl, rfl⟩ ?_
      rintro x' y' ⟨e5, e6⟩
      rw [e5, e6]
      clear e5 e6
      have hcy := hxy.cylinder
      have hke := hxy.keane
      rw [hcy, hke]
      refine (RelM.refl _).bind ?_
      rintro ⟨⟩ _ -
      have e1 := boshernitzanCost_spec H (hinv.good x (List.mem_of_getElem? hi))
      obtain ⟨⟨cost, F₁⟩, e2, e3, e4⟩ := (NumC.cost hc hc' hxy.iet).ok_left e1
      have e1' := boshernitzanCost_spec H' (hinv'.good y (List.mem_of_getElem? hi'))
      rw [e2] at e1'
      dsimp only at e1 e2 e3 e4 e1' ⊢
      rw [e3] at e1
      rw [e1, e2]
      refine RelM.bind (R := fun a b => a = (cost, _) ∧ b = (cost, F₁)) ⟨rfl, rfl⟩ ?_
      rintro x' y' ⟨e5, e6⟩
      rw [e5, e6]
      clear e5 e6
      simp only
      have hk := hinv.setCache hi
      have hk' := hinv'.setCache hi'
      simp only [Except.ok.injEq, Prod.mk.injEq] at e1'
      refine Decomp.Num.unlimited (A₀ := A₀) (A₀' := A₀') hc hc' hι hι' hL ?_ fuel 0 le_rfl ?_ ⟨R, au, ?_⟩ ⟨R', au', ?_⟩
      · intro v hv
        rw [← e3] at hv
        split at hv
        · cases hv
        · cases hv; norm_num
      · exact Decomp.Match.setComp h i ⟨e4.top, e4.bottom, e4.swapped, rfl, hxy.withoutPeriodicTrajectory, rfl, e4⟩
      · rw [← hcy, ← hke]; exact hk
      · rw [e1'.2]; exact hk'
  · rw [if_neg hl, if_neg hl]
    exact h.bounded hc hc' hι hι' hL hinv hinv' i hl

theorem Decomp.make_ok (H : LawfulLengths O c ε) {E : IET T} {s : σ} (h : H.Ok E s) :
    Decomp.make O E s = .ok ⟨[{ iet := .fresh E.top E.bottom }], ⟨s, [], ⟨E.top, fun _ => {}⟩, []⟩⟩ := by
  have h1 : IET.mk? (LWC.ops O) E.top E.bottom ⟨s, [], ⟨[], fun _ => {}⟩, []⟩ = .ok (IET.fresh E.top E.bottom : IET T) := mk?_spec H h.inv h.valid h.dom
  simp only [Decomp.make, h1, bind, Except.bind, pure, Except.pure]

/-- Two decompositions in the same state that can be reached. -/
def Decomp.NumPair (φ : NumberMap T T') (H : LawfulLengths O c ε) (H' : LawfulLengths O' c' ε') (D : Decomp σ T) (D' : Decomp σ' T') : Prop :=
  Decomp.Num φ H H' D D' ∧ (∃ A₀ R au, D.Inv H (AddMonoidHom.id T) A₀ R au) ∧ ∃ A₀ R au, D'.Inv H' (AddMonoidHom.id T') A₀ R au

include hc hc' in
theorem Decomp.NumPair.step {L : PPL} (hL : L.Lawful) (h : Decomp.NumPair φ H H' D D') (fuel : ℕ) (limit : ℤ) (i : ℕ) :
    RelM (fun x y => x.1 = y.1 ∧ Decomp.NumPair φ H H' x.2 y.2) (D.decompositionStep L O fuel limit i) (D'.decompositionStep L O' fuel limit i) := by
  obtain ⟨h1, ⟨A₀, R, au, h2⟩, A₀', R', au', h2'⟩ := h
  refine (h1.step hc hc' (ι := AddMonoidHom.id T) (ι' := AddMonoidHom.id T') (fun _ _ h => h) (fun _ _ h => h) hL h2 h2' fuel limit i).with_both.mono ?_
  rintro ⟨st, D₁⟩ ⟨st', D₁'⟩ ⟨⟨e, h3⟩, h4, h4'⟩
  obtain ⟨R, au, h5⟩ := h2.step (fun _ _ h => h) hL h4
  obtain ⟨R', au', h5'⟩ := h2'.step (fun _ _ h => h) hL h4'
  exact ⟨e, h3, ⟨A₀, R, au, h5⟩, A₀', R', au', h5'⟩

include hc hc' in
theorem Decomp.NumPair.decomposeComponent {L : PPL} (hL : L.Lawful) {target : Comp T → Bool} {target' : Comp T' → Bool}
    (ht : ∀ Q x y, Comp.Match Q x y → target x = target' y) (limit : ℤ) : ∀ (n i : ℕ) {D : Decomp σ T} {D' : Decomp σ' T'}, Decomp.NumPair φ H H' D D' →
    RelM (fun x y => x.1 = y.1 ∧ Decomp.NumPair φ H H' x.2 y.2) (D.decomposeComponent L O target limit n i) (D'.decomposeComponent L O' target' limit n i)
  | 0, _, _, _, _ => rfl
  | n + 1, i, D, D', h => by
    unfold Decomp.decomposeComponent
    refine (Decomp.Match.comp h.1 i).bind (fun x y hxy => ?_)
    rw [ht _ x y hxy]
    by_cases h0 : target' y = true
    · rw [if_pos h0, if_pos h0]; exact ⟨rfl, h⟩
    · rw [if_neg h0, if_neg h0]
      refine (h.step hc hc' hL n limit i).bind ?_
      rintro ⟨st, D₁⟩ ⟨st', D₁'⟩ ⟨e, h1⟩
      simp only at e h1
      subst e
      simp only
      by_cases hr : st.result = .limitReached
      · rw [if_pos hr, if_pos hr]; exact ⟨rfl, h1⟩
      · rw [if_neg hr, if_neg hr]
        cases st.additional with
        | none => exact Decomp.NumPair.decomposeComponent hL ht limit n i h1
        | some j =>
          simp only
          refine (Decomp.NumPair.decomposeComponent hL ht limit n j h1).bind ?_
          rintro ⟨a, D₂⟩ ⟨a', D₂'⟩ ⟨e2, h2⟩
          simp only at e2 h2
          subst e2
          refine (Decomp.NumPair.decomposeComponent hL ht limit n i h2).bind ?_
          rintro ⟨b, D₃⟩ ⟨b', D₃'⟩ ⟨e3, h3⟩
          simp only at e3 h3
          subst e3
          exact ⟨rfl, h3⟩

include hc hc' in
theorem Decomp.NumPair.decomposeAll {L : PPL} (hL : L.Lawful) {target : Comp T → Bool} {target' : Comp T' → Bool}
    (ht : ∀ Q x y, Comp.Match Q x y → target x = target' y) (limit : ℤ) (fuel : ℕ) : ∀ (is : List ℕ) {D : Decomp σ T} {D' : Decomp σ' T'}, Decomp.NumPair φ H H' D D' →
    RelM (fun x y => x.1 = y.1 ∧ Decomp.NumPair φ H H' x.2 y.2) (D.decomposeAll L O target limit fuel is) (D'.decomposeAll L O' target' limit fuel is)
  | [], _, _, h => ⟨rfl, h⟩
  | i :: is, D, D', h => by
    unfold Decomp.decomposeAll
    refine (h.decomposeComponent hc hc' hL ht limit fuel i).bind ?_
    rintro ⟨a, D₂⟩ ⟨a', D₂'⟩ ⟨e2, h2⟩
    simp only at e2 h2
    subst e2
    cases a with
    | true => exact Decomp.NumPair.decomposeAll hL ht limit fuel is h2
    | false => exact ⟨rfl, h2⟩

include hc hc' in
theorem Decomp.NumPair.decompose {L : PPL} (hL : L.Lawful) {target : Comp T → Bool} {target' : Comp T' → Bool}
    (ht : ∀ Q x y, Comp.Match Q x y → target x = target' y) (limit : ℤ) (fuel : ℕ) (h : Decomp.NumPair φ H H' D D') :
    RelM (fun x y => x.1 = y.1 ∧ Decomp.NumPair φ H H' x.2 y.2) (D.decompose L O target limit fuel) (D'.decompose L O' target' limit fuel) := by
  unfold Decomp.decompose
  rw [h.1.comps.length_eq]
  exact h.decomposeAll hc hc' hL ht limit fuel _

theorem Decomp.NumPair.make {E : IET T} {F : IET T'} {s : σ} {t : σ'} (hE : H.Ok E s) (hF : H'.Ok F t) (h1 : E.top = F.top) (h2 : E.bottom = F.bottom)
    (hl : ∀ a ∈ E.top, φ.map (H.len s a) = H'.len t a) : ∃ D D', Decomp.make O E s = .ok D ∧ Decomp.make O' F t = .ok D' ∧ Decomp.NumPair φ H H' D D' := by
  obtain ⟨D, g1, g2, g3, g4⟩ := Decomp.make_spec H (ι := AddMonoidHom.id T) (fun _ _ h => h) hE
  obtain ⟨D', g1', g2', g3', g4'⟩ := Decomp.make_spec H' (ι := AddMonoidHom.id T') (fun _ _ h => h) hF
  have m := Decomp.make_ok H hE
  have m' := Decomp.make_ok H' hF
  rw [g1] at m
  rw [g1'] at m'
  simp only [Except.ok.injEq] at m m'
  subst m m'
  refine ⟨_, _, g1, g1', ⟨?_, ?_⟩, ⟨_, _, _, g4⟩, _, _, _, g4'⟩
  · simp only [h1]
  · have o1 := (g4.good _ List.mem_cons_self).ok
    have o2 := (g4'.good _ List.mem_cons_self).ok
    refine .cons ⟨h1, h2, rfl, rfl, rfl, rfl, ?_⟩ .nil
    simp only at o1 o2 ⊢
    rw [← h1, ← h2] at o2 ⊢
    exact Num.fresh o1 o2 hl ⟨rfl, rfl⟩

end

end Verif
