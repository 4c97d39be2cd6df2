import Verif.Proofs.World
import Verif.Proofs.Connections
import Verif.Proofs.Track
import Verif.Model.Decomposition

/-!
# Induction of a component of a decomposition
-/

namespace Verif

set_option linter.unusedSectionVars false

variable {σ T ε : Type} [CommRing T] [LinearOrder T] [IsStrictOrderedRing T] {O : LengthsOps σ T}
  {d : ℕ} {c : T →+ (Fin d → ℚ)}

/-- The connections and the other components do not matter for IETs. -/
theorem LWC.ok_congr {H : LawfulLengths O c ε} {E : IET T} {s s' : LWC σ} (h : (LWC.lawful H).Ok E s) (h1 : s'.inner = s.inner)
    (h2 : s'.stack = s.stack) (h3 : s'.conns.keys = s.conns.keys) : (LWC.lawful H).Ok E s' := by
  obtain ⟨i, st, ⟨k, v⟩, o⟩ := s
  obtain ⟨i', st', ⟨k', v'⟩, o'⟩ := s'
  simp only at h1 h2 h3
  subst h1 h2 h3
  exact ⟨h.inv, h.stack, h.dom, h.valid, h.nonneg⟩

theorem LWC.good_congr {H : LawfulLengths O c ε} {E : IET T} {s s' : LWC σ} (h : (LWC.lawful H).Good E s) (h1 : s'.inner = s.inner)
    (h2 : s'.stack = s.stack) (h3 : s'.conns.keys = s.conns.keys) : (LWC.lawful H).Good E s' := by
  obtain ⟨i, st, ⟨k, v⟩, o⟩ := s
  obtain ⟨i', st', ⟨k', v'⟩, o'⟩ := s'
  simp only at h1 h2 h3
  subst h1 h2 h3
  exact ⟨⟨h.ok.inv, h.ok.stack, h.ok.dom, h.ok.valid, h.ok.nonneg⟩, h.cache, h.track⟩

/-- Induction only moves connections between the labels of the IET. -/
theorem Move.left {H : LawfulLengths O c ε} {p q : IET T × LWC σ} (h : Move (LWC.lawful H) p q) :
    q.2.others = p.2.others ∧ LeftMoved (fun a => a ∈ p.1.top) p.2.conns q.2.conns := by
  cases h with
  | @top E s r E' s' hok hz =>
    rcases hz.ext with ⟨_, _, h⟩ | ⟨a, b, ha, hb, hab, _, h⟩
    · simp only [LWC.lawful, Prod.mk.injEq] at h
      refine ⟨h.1, ?_⟩
      simp only [h.2.1]; exact .refl _
    · simp only [LWC.lawful, Prod.mk.injEq] at h
      refine ⟨h.1, ?_⟩
      simp only [h.2.1]
      exact LWC.splice_leftMoved _ hab (List.mem_of_head? ha) (hok.valid.perm.mem_iff.mp (List.mem_of_head? hb)) _
  | @bot E s r E' s' hok hz =>
    rcases hz.ext with ⟨_, _, h⟩ | ⟨a, b, ha, hb, hab, _, h⟩
    · simp only [LWC.lawful, Prod.mk.injEq] at h
      refine ⟨h.1, ?_⟩
      simp only [h.2.1]; exact .refl _
    · simp only [LWC.lawful, Prod.mk.injEq] at h
      refine ⟨h.1, ?_⟩
      simp only [h.2.1]
      exact LWC.splice_leftMoved _ hab (hok.valid.perm.mem_iff.mp (List.mem_of_head? ha)) (List.mem_of_head? hb) _
  | aux => exact ⟨rfl, .refl _⟩

theorem Moves.left {H : LawfulLengths O c ε} {p q : IET T × LWC σ} (h : Moves (LWC.lawful H) p q) :
    q.2.others = p.2.others ∧ LeftMoved (fun a => a ∈ p.1.top) p.2.conns q.2.conns := by
  induction h with
  | refl => exact ⟨rfl, .refl _⟩
  | tail h1 h2 ih =>
    refine ⟨h2.left.1.trans ih.1, ih.2.trans (h2.left.2.mono ?_)⟩
    intro a ha
    exact (Moves.top_perm h1).mem_iff.mp ha

/-! ### Contours -/

/-- The contour is closed; the first list are the intervals that are shortened, they are on top or on the bottom. -/
def ClosedOn (onTop : Bool) (nb nt κ : Label → Label) (m : ConnMap) (lv : Label → Label) (l l' : List Label) : Prop :=
  if onTop then Closed nb nt κ m lv l l' else Closed nb nt κ m lv l' l

section

variable {nb nt κ : Label → Label}

theorem RauzyTop.closed {onTop : Bool} {A B : AIET T} (h : RauzyTop A B) (hA : A.Valid) {m : ConnMap} {lv : Label → Label} {a b : Label}
    (ha : A.top.head? = some a) (hb : A.bottom.head? = some b) (hc : ClosedOn onTop nb nt κ m lv A.top A.bottom) :
    a ≠ b ∧ B.top = A.top ∧ ∃ lv', (∀ x, x ≠ a → lv' x = lv x) ∧ ClosedOn onTop nb nt κ (LWC.splice onTop a b m) lv' B.top B.bottom := by
  have hn := hA.nodup
  have hn' := hA.inv.nodup
  obtain ⟨a', b', t, l₁, l₂, len, hlt⟩ := h
  simp only [List.head?_cons, Option.some.injEq] at ha hb
  subst ha hb
  refine ⟨by rintro rfl; exact lt_irrefl _ hlt, rfl, ?_⟩
  cases onTop with
  | true => exact ⟨Function.update lv a' (nb (m.endOf b')), fun x hx => by simp [hx], Closed.stepTop hn' hn hc⟩
  | false => exact ⟨Function.update lv a' (nt b'), fun x hx => by simp [hx], Closed.stepBottom hn' hn hc⟩

theorem LWC.splice_nil {onTop : Bool} {m : ConnMap} {a b : Label} (h1 : (m.val a).topLeft = []) (h2 : (m.val a).bottomLeft = []) :
    (LWC.splice onTop a b m).val = m.val := by
  funext x
  unfold LWC.splice
  cases onTop <;> simp only [if_true, Bool.false_eq_true, if_false, ConnMap.set, h1, h2, List.append_nil, List.nil_append] <;>
  · split
    · next h => subst h; rfl
    · split
      · next h =>
        subst h
        generalize m.val x = v at h1 h2 ⊢
        obtain ⟨v1, v2, v3, v4⟩ := v
        simp only at h1 h2
        rw [h1, h2]
      · rfl

theorem ClosedOn.val {onTop : Bool} {m m' : ConnMap} {lv : Label → Label} {l l' : List Label} (h : ClosedOn onTop nb nt κ m lv l l')
    (hm : m'.val = m.val) : ClosedOn onTop nb nt κ m' lv l l' := by
  have he : m'.endOf = m.endOf := by funext x; simp only [ConnMap.endOf, hm]
  cases onTop with
  | true =>
    have h : Closed nb nt κ m lv l l' := h
    show Closed nb nt κ m' lv l l'
    exact ⟨by simpa only [hm, he] using h.botRow, by simpa only [hm, he] using h.topRow, by simpa only [hm, he] using h.left,
      by simpa only [hm, he] using h.right⟩
  | false =>
    have h : Closed nb nt κ m lv l' l := h
    show Closed nb nt κ m' lv l' l
    exact ⟨by simpa only [hm, he] using h.botRow, by simpa only [hm, he] using h.topRow, by simpa only [hm, he] using h.left,
      by simpa only [hm, he] using h.right⟩

theorem RauzyRun.closed_nil {onTop : Bool} {A B : AIET T} (h : RauzyRun A B) (hA : A.Valid) {m : ConnMap} {lv : Label → Label} {a : Label}
    (ha : A.top.head? = some a) (hc : ClosedOn onTop nb nt κ m lv A.top A.bottom) (h1 : (m.val a).topLeft = []) (h2 : (m.val a).bottomLeft = []) :
    ∃ lv', (∀ x, x ≠ a → lv' x = lv x) ∧ ClosedOn onTop nb nt κ m lv' B.top B.bottom := by
  induction h using Relation.ReflTransGen.head_induction_on generalizing lv with
  | refl => exact ⟨lv, fun _ _ => rfl, hc⟩
  | @head A C h h' ih =>
    obtain ⟨_, b, _, hb⟩ := hA.heads
    obtain ⟨g1, g2, lv₁, g3, g4⟩ := h.closed hA ha hb hc
    obtain ⟨lv', g5, g6⟩ := ih (h.fwd hA).choose_spec.2.valid' (by rw [g2]; exact ha) (g4.val (LWC.splice_nil h1 h2).symm)
    exact ⟨lv', fun x hx => (g5 x hx).trans (g3 x hx), g6⟩

theorem RauzyRun.closed {onTop : Bool} {A B : AIET T} (h : RauzyRun A B) (hA : A.Valid) {m : ConnMap} {lv : Label → Label} {a b : Label}
    (ha : A.top.head? = some a) (hb : A.bottom.head? = some b) (hc : ClosedOn onTop nb nt κ m lv A.top A.bottom) :
    B = A ∨ ∃ lv', (∀ x, x ≠ a → lv' x = lv x) ∧ ClosedOn onTop nb nt κ (LWC.splice onTop a b m) lv' B.top B.bottom := by
  induction h using Relation.ReflTransGen.head_induction_on with
  | refl => exact .inl rfl
  | @head A C h h' =>
    right
    obtain ⟨g1, g2, lv₁, g3, g4⟩ := h.closed hA ha hb hc
    have hv := (LWC.splice_val onTop g1 m).2.1
    obtain ⟨lv', g5, g6⟩ := RauzyRun.closed_nil h' (h.fwd hA).choose_spec.2.valid' (by rw [g2]; exact ha) g4 (by rw [hv]) (by rw [hv])
    exact ⟨lv', fun x hx => (g5 x hx).trans (g3 x hx), g6⟩

theorem ZorichSpec.closed {H : LawfulLengths O c ε} {E E' : IET T} {s s' : LWC σ} {r : Bool} (hz : ZorichSpec (LWC.lawful H) E s r E' s')
    (hok : (LWC.lawful H).Ok E s) (hoth : ∀ x ∈ s.others, ∀ a ∈ E.top, x.top.head? ≠ some a) {lv : Label → Label}
    (hc : ClosedOn (!E.swapped) nb nt κ s.conns lv E.top E.bottom) :
    ∃ lv', (∀ x, x ∉ E.top → lv' x = lv x) ∧ ClosedOn (!E.swapped) nb nt κ s'.conns lv' E'.top E'.bottom := by
  rcases hz.ext with ⟨h1, _, h⟩ | ⟨a, b, ha, hb, hab, hlt, h⟩
  · simp only [LWC.lawful, Prod.mk.injEq] at h
    rw [h1, h.2.1]
    exact ⟨lv, fun _ _ => rfl, hc⟩
  · simp only [LWC.lawful, Prod.mk.injEq] at h
    have hmem := List.mem_of_head? ha
    have hon : LWC.minuendOnTop (E.ctx :: s.others) a = !E.swapped := by
      simp only [LWC.minuendOnTop, List.any_cons, IET.ctx, ha, decide_true, Bool.true_and]
      have : (s.others.any fun c => decide (c.top.head? = some a) && !c.swapped) = false := by
        rw [List.any_eq_false]
        intro x hx
        simp [hoth x hx a hmem]
      rw [this, Bool.or_false]
    rw [h.2.1, hon]
    rcases RauzyRun.closed (lv := lv) hz.run hok.valid ha hb hc with e | ⟨lv', g1, g2⟩
    · exfalso
      have e1 : E'.top = E.top := congrArg AIET.top e
      have e2 : E'.bottom = E.bottom := congrArg AIET.bottom e
      have e3 : (LWC.lawful H).len s' = (LWC.lawful H).len s := congrArg AIET.len e
      have := hz.final a b (by rw [e1]; exact ha) (by rw [e2]; exact hb)
      rw [e3] at this
      exact absurd hlt (not_lt.mpr this)
    · exact ⟨lv', fun x hx => g1 x (by rintro rfl; exact hx hmem), g2⟩

theorem Move.closed {H : LawfulLengths O c ε} {p q : IET T × LWC σ} (h : Move (LWC.lawful H) p q) (hsw : p.1.swapped = false)
    (hoth : ∀ x ∈ p.2.others, ∀ a ∈ p.1.top, x.top.head? ≠ some a) (lv : Label → Label)
    (hc : Closed nb nt κ p.2.conns lv p.1.top p.1.bottom) :
    ∃ lv', (∀ x, x ∉ p.1.top → lv' x = lv x) ∧ Closed nb nt κ q.2.conns lv' q.1.top q.1.bottom := by
  cases h with
  | @top E s r E' s' hok hz =>
    simp only at hsw
    have := hz.closed (nb := nb) (nt := nt) (κ := κ) (lv := lv) hok hoth (by rw [hsw]; exact hc)
    rwa [hsw] at this
  | @bot E s r E' s' hok hz =>
    simp only at hsw
    have hmem : ∀ x, x ∈ E.swap.top ↔ x ∈ E.top := fun x => hok.valid.perm.mem_iff
    have hs : (!E.swap.swapped) = false := by simp [IET.swap, hsw]
    have := hz.closed (nb := nb) (nt := nt) (κ := κ) (lv := lv) hok.swap (fun x hx a ha => hoth x hx a ((hmem a).mp ha)) (by rw [hs]; exact hc)
    rw [hs] at this
    obtain ⟨lv', h1, h2⟩ := this
    exact ⟨lv', fun x hx => h1 x (fun h => hx ((hmem x).mp h)), h2⟩
  | @aux E s E' h1 h2 _ =>
    refine ⟨lv, fun _ _ => rfl, ?_⟩
    simp only [h1, h2]
    exact hc

theorem Moves.closed {H : LawfulLengths O c ε} {p q : IET T × LWC σ} (h : Moves (LWC.lawful H) p q)
    (hsw : p.1.swapped = false)
    (hoth : ∀ x ∈ p.2.others, ∀ a ∈ p.1.top, x.top.head? ≠ some a) (lv : Label → Label)
    (hc : Closed nb nt κ p.2.conns lv p.1.top p.1.bottom) :
    ∃ lv', (∀ x, x ∉ p.1.top → lv' x = lv x) ∧ Closed nb nt κ q.2.conns lv' q.1.top q.1.bottom := by
  induction h with
  | refl => exact ⟨lv, fun _ _ => rfl, hc⟩
  | @tail r q h1 h2 ih =>
    obtain ⟨lv₁, g1, g2⟩ := ih
    have hp : r.1.top.Perm p.1.top := Moves.top_perm h1
    obtain ⟨lv', g3, g4⟩ := h2.closed ((Moves.swapped h1).trans hsw) (by
      rw [(Moves.left h1).1]
      exact fun x hx a ha => hoth x hx a (hp.mem_iff.mp ha)) lv₁ g2
    exact ⟨lv', fun x hx => (g3 x (fun h => hx (hp.mem_iff.mp h))).trans (g1 x hx), g4⟩

end

/-- What the induction of a component of a decomposition does; several calls of `induce` are a single one. -/
inductive StepSpec (H : LawfulLengths O c ε) (E : IET T) (s : σ) : InductionStep T → IET T → σ → Prop
  | cylinder {E' : IET T} {s' : σ} : Moves H (E, s) (E', s') → E'.top.length = 1 → StepSpec H E s ⟨.cylinder, none, none⟩ E' s'
  | auto {E' : IET T} {s' : σ} : Moves H (E, s) (E', s') → H.LoopFound E' s' → (∀ x ∈ safList c (H.abs E s), x = 0) →
      E'.top.length ≠ 1 → StepSpec H E s ⟨.withoutPeriodicTrajectoryAutoSimilar, none, none⟩ E' s'
  | finish {E₁ : IET T} {step : InductionStep T} {E' : IET T} {s' : σ} : Moves H (E, s) (E₁, s') → FinishSpec H E₁ s' step E' →
      StepSpec H E s step E' s'

theorem InduceSpec.stepSpec {H : LawfulLengths O c ε} {limit : ℤ} {E : IET T} {s : σ} {step : InductionStep T} {E' : IET T} {s' : σ}
    (h : InduceSpec H limit E s step E' s') : StepSpec H E s step E' s' := by
  cases h with
  | cylinder h => exact .cylinder .refl h
  | auto h0 _ h1 h2 h3 => exact .auto h1 h2 h3 (by rw [(Moves.top_perm h1).length_eq]; exact h0)
  | finish _ h1 h2 _ _ => exact .finish h1 h2

theorem safList_moves {H : LawfulLengths O c ε} {p q : IET T × σ} (h : Moves H p q) (hp : H.Ok p.1 p.2) :
    safList c (H.abs q.1 q.2) = safList c (H.abs p.1 p.2) :=
  safList_congr (fun φ ψ => h.steps.saf_eq φ ψ hp.valid)

theorem StepSpec.trans {H : LawfulLengths O c ε} {E E₁ E' : IET T} {s s₁ s' : σ} {step : InductionStep T} (h : Moves H (E, s) (E₁, s₁))
    (hE : H.Ok E s) (h' : StepSpec H E₁ s₁ step E' s') : StepSpec H E s step E' s' := by
  cases h' with
  | cylinder h1 h2 => exact .cylinder (h.trans h1) h2
  | auto h1 h2 h3 h4 => exact .auto (h.trans h1) h2 (by have := safList_moves h hE; simp only at this; rwa [← this]) h4
  | finish h1 h2 => exact .finish (h.trans h1) h2

theorem StepSpec.limit_moves {H : LawfulLengths O c ε} {E E' : IET T} {s s' : σ} {step : InductionStep T} (h : StepSpec H E s step E' s')
    (hs : E'.swapped = E.swapped) (hr : step.result = .limitReached) : Moves H (E, s) (E', s') := by
  cases h with
  | cylinder => cases hr
  | auto => cases hr
  | finish h1 h2 =>
    cases h2 with
    | separating => cases hr
    | nonSeparating => cases hr
    | boshernitzan => cases hr
    | limit h3 h4 _ _ _ => exact h1.tail (.aux h3 h4 (hs.trans h1.swapped.symm))

/-- The loop of component.cc:186-203 finishes. -/
theorem chunks_spec (H : LawfulLengths O c ε) {L : PPL} (hL : L.Lawful) (cost : Option ℤ) (hcost : ∀ x, cost = some x → 0 < x) :
    ∀ (n : ℕ) (limit : ℤ) (E : IET T) (s : LWC σ), limit ≠ -1 → limit.toNat < n → (LWC.lawful H).Good E s →
    ∃ step E' s', Decomp.chunks L O cost n limit E s = .ok (step, E', s') ∧ StepSpec (LWC.lawful H) E s step E' s' ∧
      (LWC.lawful H).Good E' s' ∧ (LWC.lawful H).dom s' = (LWC.lawful H).dom s ∧
      (∀ x, x ∉ E.top → H.len s'.inner x = H.len s.inner x) ∧ E'.swapped = E.swapped := by
  intro n
  induction n with
  | zero => intro limit E s _ h; omega
  | succ n ih =>
    intro limit E s hl hn hg
    obtain ⟨steps, hsteps, hne, hle⟩ : ∃ steps : ℤ, Decomp.chunkSize cost limit = steps ∧ steps ≠ -1 ∧ (limit - steps = 0 ∨ (0 < limit - steps ∧ 0 < steps)) := by
      cases cost with
      | none => exact ⟨limit, rfl, hl, .inl (by omega)⟩
      | some x =>
        have hx := hcost x rfl
        by_cases h : limit < 2 * x
        · exact ⟨limit, if_pos h, hl, .inl (by omega)⟩
        · exact ⟨x, if_neg h, by omega, .inr (by omega)⟩
    simp only [Decomp.chunks, bind, Except.bind, pure, Except.pure]
    rw [hsteps]
    rcases induce_spec (LWC.lawful H) hL 0 steps E s hg with ⟨_, h⟩ | ⟨step, E', s', h1, h2, h3, h4, h5, h6⟩
    · exact absurd h hne
    · rw [h1]
      simp only
      by_cases hr : step.result = .limitReached ∧ limit - steps ≠ 0
      · rw [if_pos hr]
        obtain ⟨step', E'', s'', g1, g2, g3, g4, g5, g6⟩ := ih (limit - steps) E' s' (by omega) (by omega) h3
        have hm := h2.stepSpec.limit_moves h6 hr.1
        refine ⟨step', E'', s'', g1, g2.trans hm hg.ok, g3, g4.trans h4, ?_, g6.trans h6⟩
        intro x hx
        rw [g5 x (fun h => hx ((Moves.top_perm hm).mem_iff.mp h))]
        exact h5 x hx
      · rw [if_neg hr]
        exact ⟨step, E', s', rfl, h2.stepSpec, h3, h4, h5, h6⟩

/-- component.cc:344-356 succeeds. -/
theorem boshernitzanCost_spec (H : LawfulLengths O c ε) {E : IET T} {s : LWC σ} (h : (LWC.lawful H).Good E s) :
    Decomp.boshernitzanCost O E s = .ok (if ∀ x ∈ safList c (H.abs E s.inner), x = 0 then none else some 64,
      { E with safCache := some (safList c ((LWC.lawful H).unswapped E s)) }) := by
  unfold Decomp.boshernitzanCost
  rw [safInvariant_spec (LWC.lawful H) h.ok h.cache]
  simp only [bind, Except.bind, pure, Except.pure, List.all_eq_true, decide_eq_true_eq]
  rfl

end Verif
