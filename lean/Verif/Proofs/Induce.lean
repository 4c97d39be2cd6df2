import Verif.Proofs.Tracker

/-!
# `induce`
-/

namespace Verif

set_option linter.unusedSectionVars false

section model

variable {σ T ε : Type} [CommRing T] [LinearOrder T] [IsStrictOrderedRing T] {O : LengthsOps σ T}
  {d : ℕ} {c : T →+ (Fin d → ℚ)}

@[simp] theorem IET.swap_swap (E : IET T) : E.swap.swap = E := by simp [IET.swap]
@[simp] theorem IET.swap_top (E : IET T) : E.swap.top = E.bottom := rfl
@[simp] theorem IET.swap_bottom (E : IET T) : E.swap.bottom = E.top := rfl
@[simp] theorem IET.swap_swapped (E : IET T) : E.swap.swapped = !E.swapped := rfl
@[simp] theorem IET.swap_tracker (E : IET T) : E.swap.tracker = E.tracker := rfl
@[simp] theorem IET.swap_cache (E : IET T) : E.swap.safCache = E.safCache := rfl

theorem LawfulLengths.abs_swap (H : LawfulLengths O c ε) (E : IET T) (s : σ) : H.abs E.swap s = (H.abs E s).inv := rfl

theorem LawfulLengths.unswapped_swap (H : LawfulLengths O c ε) (E : IET T) (s : σ) :
    H.unswapped E.swap s = H.unswapped E s := by
  unfold LawfulLengths.unswapped
  cases h : E.swapped <;> simp [h, H.abs_swap]

theorem LawfulLengths.Ok.swap {H : LawfulLengths O c ε} {E : IET T} {s : σ} (h : H.Ok E s) : H.Ok E.swap s where
  inv := h.inv
  stack := h.stack
  dom a ha := h.dom a (h.valid.perm.mem_iff.mp ha)
  valid := h.valid.inv
  nonneg := h.nonneg

theorem LawfulLengths.CacheOk.swap {H : LawfulLengths O c ε} {E : IET T} {s : σ} (h : H.CacheOk E s) : H.CacheOk E.swap s := by
  intro v hv
  rw [H.unswapped_swap]; exact h v hv

theorem LawfulLengths.TrackInv.swap {H : LawfulLengths O c ε} {R : AIET T → AIET T → Prop} {E : IET T} {s : σ}
    (hv : (H.abs E s).Valid) (h : H.TrackInv R E s) : H.TrackInv R E.swap s := by
  rcases h with h | ⟨E₀, E₁, g1, g2, g3, g4, g5⟩
  · exact .inl h
  · refine .inr ⟨E₀, E₁, g1, g2, g3, g4, ?_⟩
    rcases g5 with ⟨g5, g6⟩ | g5
    · exact .inl ⟨g5, g6.symm⟩
    · exact .inr (by have := hv.perm.length_eq; simp only [LawfulLengths.abs] at this; simpa [this] using g5)

/-- One of the steps the induction consists of. -/
inductive Move (H : LawfulLengths O c ε) : IET T × σ → IET T × σ → Prop
  | top {E s r E' s'} : H.Ok E s → ZorichSpec H E s r E' s' → Move H (E, s) (E', s')
  | bot {E s r E' s'} : H.Ok E s → ZorichSpec H E.swap s r E'.swap s' → Move H (E, s) (E', s')
  | aux {E s E'} : E'.top = E.top → E'.bottom = E.bottom → E'.swapped = E.swapped → Move H (E, s) (E', s)

abbrev Moves (H : LawfulLengths O c ε) : IET T × σ → IET T × σ → Prop := Relation.ReflTransGen (Move H)

theorem Move.ok {H : LawfulLengths O c ε} {p q : IET T × σ} (h : Move H p q) (hp : H.Ok p.1 p.2) : H.Ok q.1 q.2 := by
  cases h with
  | top _ hz => exact hz.ok
  | bot _ hz => have := hz.ok.swap; simpa using this
  | aux h1 h2 _ => exact hp.congr h1 h2

theorem Move.dom {H : LawfulLengths O c ε} {p q : IET T × σ} (h : Move H p q) : H.dom q.2 = H.dom p.2 := by
  cases h with
  | top _ hz => exact hz.dom
  | bot _ hz => exact hz.dom
  | aux => rfl

theorem ZorichSpec.swapped {H : LawfulLengths O c ε} {E E' : IET T} {s s' : σ} {r : Bool} (h : ZorichSpec H E s r E' s') :
    E'.swapped = E.swapped := by rw [h.eq]
theorem ZorichSpec.top {H : LawfulLengths O c ε} {E E' : IET T} {s s' : σ} {r : Bool} (h : ZorichSpec H E s r E' s') :
    E'.top = E.top := by rw [h.eq]
theorem ZorichSpec.cache {H : LawfulLengths O c ε} {E E' : IET T} {s s' : σ} {r : Bool} (h : ZorichSpec H E s r E' s') :
    E'.safCache = E.safCache := by rw [h.eq]
theorem ZorichSpec.tracker {H : LawfulLengths O c ε} {E E' : IET T} {s s' : σ} {r : Bool} (h : ZorichSpec H E s r E' s') :
    E'.tracker = E.tracker := by rw [h.eq]

theorem Move.swapped {H : LawfulLengths O c ε} {p q : IET T × σ} (h : Move H p q) : q.1.swapped = p.1.swapped := by
  cases h with
  | top _ hz => exact hz.swapped
  | bot _ hz => have := hz.swapped; simpa using this
  | aux _ _ h => exact h

theorem Move.steps {H : LawfulLengths O c ε} {p q : IET T × σ} (h : Move H p q) : Steps (H.abs p.1 p.2) (H.abs q.1 q.2) := by
  cases h with
  | top _ hz => exact hz.run.steps
  | bot _ hz => exact hz.run.steps.inv
  | aux h1 h2 _ => simp only [LawfulLengths.abs, h1, h2]; exact .refl

theorem Moves.ok {H : LawfulLengths O c ε} {p q : IET T × σ} (h : Moves H p q) (hp : H.Ok p.1 p.2) : H.Ok q.1 q.2 := by
  induction h with
  | refl => exact hp
  | tail _ h ih => exact h.ok ih

theorem Moves.dom {H : LawfulLengths O c ε} {p q : IET T × σ} (h : Moves H p q) : H.dom q.2 = H.dom p.2 := by
  induction h with
  | refl => rfl
  | tail _ h ih => rw [h.dom, ih]

theorem Moves.swapped {H : LawfulLengths O c ε} {p q : IET T × σ} (h : Moves H p q) : q.1.swapped = p.1.swapped := by
  induction h with
  | refl => rfl
  | tail _ h ih => rw [h.swapped, ih]

theorem Moves.steps {H : LawfulLengths O c ε} {p q : IET T × σ} (h : Moves H p q) : Steps (H.abs p.1 p.2) (H.abs q.1 q.2) := by
  induction h with
  | refl => exact .refl
  | tail _ h ih => exact ih.trans h.steps

/-- The SAF invariant of the orientation without swap does not change. -/
theorem Moves.unswapped {H : LawfulLengths O c ε} {p q : IET T × σ} (h : Moves H p q) (hp : H.Ok p.1 p.2) :
    safList c (H.unswapped q.1 q.2) = safList c (H.unswapped p.1 p.2) := by
  apply safList_congr
  intro φ ψ
  have hs := h.steps
  unfold LawfulLengths.unswapped
  rw [h.swapped]
  split
  · exact hs.inv.saf_eq φ ψ hp.valid.inv
  · exact hs.saf_eq φ ψ hp.valid

theorem Moves.cache {H : LawfulLengths O c ε} {p q : IET T × σ} (h : Moves H p q) (hp : H.Ok p.1 p.2)
    (hc : H.CacheOk p.1 p.2) (he : q.1.safCache = p.1.safCache) : H.CacheOk q.1 q.2 := by
  intro v hv
  rw [h.unswapped hp]
  exact hc v (he ▸ hv)

/-- The tracker stays correct after some steps. -/
theorem LawfulLengths.TrackInv.steps {H : LawfulLengths O c ε} {E E' : IET T} {s s' : σ}
    (hv : (H.abs E s).Valid) (h : H.TrackInv Steps E s)
    (hd : H.dom s' = H.dom s) (ht : E'.tracker = E.tracker) {R R' : AIET T → AIET T → Prop}
    (hs : R (H.abs E s) (H.abs E' s')) (hs' : Steps (H.abs E s) (H.abs E' s'))
    (hR : ∀ A A' B, A.Valid → R A B → A.Agree A' → ∃ B', R A' B' ∧ B.Agree B')
    (hRi : ∀ A B, R A B → R A.inv B.inv)
    (hRS : ∀ A B C, Steps A B → R B C → R' A C) : H.TrackInv R' E' s' := by
  have hlen := (Steps.top_perm hs').length_eq
  have hv' := Steps.valid hv hs'
  rcases h with h | ⟨E₀, E₁, g1, g2, g3, g4, g5⟩
  · exact .inl (ht ▸ h)
  · rcases g5 with ⟨g5, g6 | g6⟩ | g5
    · obtain ⟨B', h1, h2⟩ := hR _ _ _ hv hs g6.symm
      exact .inr ⟨E₀, B', g1, by rw [ht]; exact g2, by rw [ht]; exact g3, by rw [ht, hd]; exact g4,
        .inl ⟨hRS _ _ _ g5 h1, .inl h2.symm⟩⟩
    · obtain ⟨B', h1, h2⟩ := hR _ _ _ hv.inv (hRi _ _ hs) g6.symm
      exact .inr ⟨E₀, B', g1, by rw [ht]; exact g2, by rw [ht]; exact g3, by rw [ht, hd]; exact g4,
        .inl ⟨hRS _ _ _ g5 h1, .inr h2.symm⟩⟩
    · refine .inr ⟨E₀, E₁, g1, by rw [ht]; exact g2, by rw [ht]; exact g3, by rw [ht, hd]; exact g4, .inr ?_⟩
      simp only [LawfulLengths.abs] at hlen
      omega

theorem transGen_agree {A A' B : AIET T} (hA : A.Valid) (h : Relation.TransGen RauzyStep A B) (ha : A.Agree A') :
    ∃ B', Relation.TransGen RauzyStep A' B' ∧ B.Agree B' := by
  induction h with
  | single h => obtain ⟨B', h1, h2⟩ := h.agree hA ha; exact ⟨B', .single h1, h2⟩
  | tail hr h ih =>
    obtain ⟨B', h1, h2⟩ := ih
    obtain ⟨B'', h3, h4⟩ := h.agree (Steps.valid hA hr.to_reflTransGen) h2
    exact ⟨B'', .tail h1 h3, h4⟩

theorem transGen_inv {A B : AIET T} (h : Relation.TransGen RauzyStep A B) : Relation.TransGen RauzyStep A.inv B.inv := by
  induction h with
  | single h => exact .single h.inv
  | tail _ h ih => exact .tail ih h.inv

theorem LawfulLengths.TrackInv.steps_weak {H : LawfulLengths O c ε} {E E' : IET T} {s s' : σ}
    (hv : (H.abs E s).Valid) (h : H.TrackInv Steps E s) (hd : H.dom s' = H.dom s) (ht : E'.tracker = E.tracker)
    (hs : Steps (H.abs E s) (H.abs E' s')) : H.TrackInv Steps E' s' :=
  h.steps hv hd ht hs hs (fun _ _ _ hA hs ha => hs.agree hA ha) (fun _ _ h => h.inv) (fun _ _ _ h h' => h.trans h')

theorem LawfulLengths.TrackInv.steps_strong {H : LawfulLengths O c ε} {E E' : IET T} {s s' : σ}
    (hv : (H.abs E s).Valid) (h : H.TrackInv Steps E s) (hd : H.dom s' = H.dom s) (ht : E'.tracker = E.tracker)
    (hs : Relation.TransGen RauzyStep (H.abs E s) (H.abs E' s')) : H.TrackInv (Relation.TransGen RauzyStep) E' s' :=
  h.steps hv hd ht hs hs.to_reflTransGen (fun _ _ _ hA hs ha => transGen_agree hA hs ha) (fun _ _ h => transGen_inv h)
    (fun _ _ _ h h' => Relation.TransGen.trans_right h h')

theorem LawfulLengths.TrackInv.steps_keep {H : LawfulLengths O c ε} {E E' : IET T} {s s' : σ}
    (hv : (H.abs E s).Valid) (h : H.TrackInv (Relation.TransGen RauzyStep) E s) (hd : H.dom s' = H.dom s)
    (ht : E'.tracker = E.tracker)
    (hs : Steps (H.abs E s) (H.abs E' s')) : H.TrackInv (Relation.TransGen RauzyStep) E' s' := by
  have hlen := (Steps.top_perm hs).length_eq
  rcases h with h | ⟨E₀, E₁, g1, g2, g3, g4, g5⟩
  · exact .inl (ht ▸ h)
  · rcases g5 with ⟨g5, g6 | g6⟩ | g5
    · obtain ⟨B', h1, h2⟩ := hs.agree hv g6.symm
      exact .inr ⟨E₀, B', g1, by rw [ht]; exact g2, by rw [ht]; exact g3, by rw [ht, hd]; exact g4,
        .inl ⟨Relation.TransGen.trans_left g5 h1, .inl h2.symm⟩⟩
    · obtain ⟨B', h1, h2⟩ := hs.inv.agree hv.inv g6.symm
      exact .inr ⟨E₀, B', g1, by rw [ht]; exact g2, by rw [ht]; exact g3, by rw [ht, hd]; exact g4,
        .inl ⟨Relation.TransGen.trans_left g5 h1, .inr h2.symm⟩⟩
    · refine .inr ⟨E₀, E₁, g1, by rw [ht]; exact g2, by rw [ht]; exact g3, by rw [ht, hd]; exact g4, .inr ?_⟩
      simp only [LawfulLengths.abs] at hlen
      omega

/-- When the first top interval is longer than the first bottom interval then `zorichInduction` makes a step. -/
theorem ZorichSpec.transGen {H : LawfulLengths O c ε} {E E' : IET T} {s s' : σ} {r : Bool} (h : ZorichSpec H E s r E' s')
    {a b : Label} (ha : E.top.head? = some a) (hb : E.bottom.head? = some b) (hlt : H.len s b < H.len s a) :
    Relation.TransGen RauzyStep (H.abs E s) (H.abs E' s') := by
  rcases Relation.reflTransGen_iff_eq_or_transGen.mp h.run.steps with he | ht
  · exfalso
    have h1 : E'.top = E.top := congrArg AIET.top he
    have h2 : E'.bottom = E.bottom := congrArg AIET.bottom he
    have h3 : H.len s' = H.len s := congrArg AIET.len he
    have := h.final a b (by rw [h1, ha]) (by rw [h2, hb])
    rw [h3] at this
    exact absurd hlt (not_lt.mpr this)
  · exact ht

/-- The first top and first bottom intervals have equal length. -/
def HeadsEq (A : AIET T) : Prop := ∀ a b, A.top.head? = some a → A.bottom.head? = some b → A.len a = A.len b

theorem AIET.Valid.heads {A : AIET T} (h : A.Valid) : ∃ a b, A.top.head? = some a ∧ A.bottom.head? = some b := by
  have h2 := h.inv.ne_nil
  have h1 := h.ne_nil
  cases ht : A.top with
  | nil => exact absurd ht h1
  | cons a t =>
    cases hb : A.bottom with
    | nil => exact absurd hb h2
    | cons b t' => exact ⟨a, b, rfl, rfl⟩

/-- The state of the IET, its cache and its tracker are in order. -/
structure LawfulLengths.Good (H : LawfulLengths O c ε) (E : IET T) (s : σ) : Prop where
  ok : H.Ok E s
  cache : H.CacheOk E s
  track : H.TrackInv (Relation.TransGen RauzyStep) E s

/-- The result of the loop. -/
structure LoopSpec (H : LawfulLengths O c ε) (n : ℕ) (saf0 : Bool) (E : IET T) (s : σ) (e : IET.LoopEnd) (E' : IET T) (s' : σ) : Prop where
  moves : Moves H (E, s) (E', s')
  cache : H.CacheOk E' s'
  exhausted : e = .exhausted → H.TrackInv (Relation.TransGen RauzyStep) E' s' ∧ (n = 0 → E' = E ∧ s' = s) ∧
    (n ≠ 0 → ¬ HeadsEq (H.abs E' s'))
  found : e = .found → H.TrackInv Steps E' s' ∧ HeadsEq (H.abs E' s') ∧ n ≠ 0
  auto : e = .autoSimilar → saf0 = true ∧ H.TrackInv (Relation.TransGen RauzyStep) E' s' ∧ H.LoopFound E' s' ∧ n ≠ 0
  iter : e = .exhausted → Iter (Relation.TransGen RauzyStep) n (H.abs E s) (H.abs E' s')

theorem induceLoop_spec (H : LawfulLengths O c ε) (saf0 : Bool) : ∀ (n : ℕ) (E : IET T) (s : σ), H.Good E s →
    ∃ e E' s', IET.induceLoop O saf0 n E s = .ok (e, E', s') ∧ LoopSpec H n saf0 E s e E' s' := by
  intro n
  induction n with
  | zero =>
    intro E s h
    exact ⟨.exhausted, E, s, rfl, .refl, h.cache, fun _ => ⟨h.track, fun _ => ⟨rfl, rfl⟩, fun h => absurd rfl h⟩,
      by simp, by simp, fun _ => rfl⟩
  | succ n ih =>
    intro E s h
    obtain ⟨r, E₁, t1, t2, t3, t4, t5, t6, t7⟩ := trackStep_spec H saf0 h.ok h.cache h.track
    have habs : H.abs E₁ s = H.abs E s := by simp [LawfulLengths.abs, t2, t3]
    have m1 : Moves H (E, s) (E₁, s) := .single (.aux t2 t3 t4)
    have ok1 : H.Ok E₁ s := h.ok.congr t2 t3
    cases r with
    | true =>
      obtain ⟨q1, q2, q3⟩ := t7 rfl
      refine ⟨.autoSimilar, E₁, s, ?_, m1, t5, by simp, by simp, fun _ => ⟨q1, q2, q3, by simp⟩, by simp⟩
      simp only [IET.induceLoop, t1, bind, Except.bind, if_true, pure, Except.pure]
    | false =>
      have tr1 := t6 rfl
      obtain ⟨r2, E₂, s₂, z1, z2⟩ := zorichInduction_spec H E₁ s ok1
      have m2 : Moves H (E₁, s) (E₂, s₂) := .single (.top ok1 z2)
      have tr2 : H.TrackInv Steps E₂ s₂ := tr1.steps_weak ok1.valid z2.dom z2.tracker z2.run.steps
      have c2 : H.CacheOk E₂ s₂ := m2.cache ok1 t5 z2.cache
      cases r2 with
      | true =>
        refine ⟨.found, E₂, s₂, ?_, m1.trans m2, c2, by simp, fun _ => ⟨tr2, ?_, by simp⟩, by simp, by simp⟩
        · simp only [IET.induceLoop, t1, z1, bind, Except.bind, if_true, pure, Except.pure, Bool.false_eq_true, if_false]
        · intro a b ha hb; exact (z2.ret a b ha hb).mp rfl
      | false =>
        have ok2 := z2.ok.swap
        obtain ⟨r3, E₃, s₃, y1, y2⟩ := zorichInduction_spec H E₂.swap s₂ ok2
        have y2' : ZorichSpec H E₂.swap s₂ r3 E₃.swap.swap s₃ := by simpa using y2
        have m3 : Moves H (E₂, s₂) (E₃.swap, s₃) := .single (.bot z2.ok y2')
        have htr3 : E₃.swap.tracker = E₂.tracker := by simpa using y2.tracker
        have c3 : H.CacheOk E₃.swap s₃ := m3.cache z2.ok c2 (by simpa using y2.cache)
        have hv3 := y2.ok.swap
        cases r3 with
        | true =>
          refine ⟨.found, E₃.swap, s₃, ?_, (m1.trans m2).trans m3, c3, by simp, fun _ => ⟨?_, ?_, by simp⟩, by simp, by simp⟩
          · simp only [IET.induceLoop, t1, z1, y1, bind, Except.bind, if_true, pure, Except.pure, Bool.false_eq_true, if_false]
          · exact tr2.steps_weak z2.ok.valid y2.dom htr3 m3.steps
          · intro a b ha hb; exact ((y2.ret b a hb ha).mp rfl).symm
        | false =>
          -- the second half makes at least one step
          obtain ⟨a, b, ha, hb⟩ := z2.ok.valid.heads
          have hlt : H.len s₂ a < H.len s₂ b := by
            have h1 := z2.final a b ha hb
            have h2 := z2.ret a b ha hb
            exact lt_of_le_of_ne h1 (fun h3 => by simpa using h2.mpr h3)
          have hT : Relation.TransGen RauzyStep (H.abs E₂ s₂) (H.abs E₃.swap s₃) :=
            transGen_inv (y2.transGen (a := b) (b := a) hb ha hlt)
          have g3 : H.Good E₃.swap s₃ := ⟨hv3, c3, tr2.steps_strong z2.ok.valid y2.dom htr3 hT⟩
          obtain ⟨e, E', s', f1, f2⟩ := ih E₃.swap s₃ g3
          refine ⟨e, E', s', ?_, ((m1.trans m2).trans m3).trans f2.moves, f2.cache, ?_, ?_, ?_, ?_⟩
          · simp only [IET.induceLoop, t1, z1, y1, bind, Except.bind, Bool.false_eq_true, if_false]
            exact f1
          · intro he
            obtain ⟨f3, f4, f5⟩ := f2.exhausted he
            refine ⟨f3, by simp, fun _ => ?_⟩
            by_cases hn : n = 0
            · obtain ⟨rfl, rfl⟩ := f4 hn
              intro hh
              obtain ⟨a', b', ha', hb'⟩ := hv3.valid.heads
              have h2 := y2.ret b' a' hb' ha'
              have := hh a' b' ha' hb'
              exact absurd (h2.mpr this.symm) (by simp)
            · exact f5 hn
          · intro he
            obtain ⟨f3, f4, f5⟩ := f2.found he
            exact ⟨f3, f4, by simp⟩
          · intro he
            obtain ⟨f3, f4, f5, _⟩ := f2.auto he
            exact ⟨f3, f4, f5, by simp⟩
          · intro he
            refine ⟨_, ?_, f2.iter he⟩
            rw [← habs]
            exact Relation.TransGen.trans_right z2.run.steps hT


/-! ### After the loop -/

theorem Moves.frame {H : LawfulLengths O c ε} {p q : IET T × σ} (h : Moves H p q) (hp : H.Ok p.1 p.2) {x : Label}
    (hx : x ∉ p.1.top) : H.len q.2 x = H.len p.2 x :=
  Steps.len_ne hp.valid h.steps hx

theorem Moves.top_perm {H : LawfulLengths O c ε} {p q : IET T × σ} (h : Moves H p q) : q.1.top.Perm p.1.top :=
  Steps.top_perm h.steps

theorem LawfulLengths.TrackInv.shrink {H : LawfulLengths O c ε} {E E' : IET T} {s : σ}
    (hv : (H.abs E s).Valid) (h : H.TrackInv Steps E s) (ht : E'.tracker = E.tracker)
    (hl : E'.top.length < E.top.length) {R : AIET T → AIET T → Prop} : H.TrackInv R E' s := by
  rcases h with h | ⟨E₀, E₁, g1, g2, g3, g4, g5⟩
  · exact .inl (ht ▸ h)
  · refine .inr ⟨E₀, E₁, g1, by rw [ht]; exact g2, by rw [ht]; exact g3, by rw [ht]; exact g4, .inr ?_⟩
    rcases g5 with ⟨g5, g6 | g6⟩ | g5
    · have h1 := (Steps.top_perm g5).length_eq
      have h2 : E₁.top = E.top := g6.1
      rw [h2] at h1; omega
    · have h1 := (Steps.top_perm g5).length_eq
      have h2 : E₁.top = E.bottom := g6.1
      have h3 : E.bottom.length = E.top.length := hv.perm.length_eq
      rw [h2] at h1; omega
    · omega

theorem mergeBottom_append (b t : Label) : ∀ (l₁ l₂ : List Label), t ∉ l₁ →
    IET.mergeBottom b t (l₁ ++ t :: l₂) = l₁ ++ b :: l₂
  | [], l₂, _ => by simp [IET.mergeBottom]
  | c :: l₁, l₂, h => by
    simp only [List.mem_cons, not_or] at h
    simp [IET.mergeBottom, Ne.symm h.1, mergeBottom_append b t l₁ l₂ h.2]

/-- What happens after the loop, `E₁` is the IET after the loop. -/
inductive FinishSpec (H : LawfulLengths O c ε) (E₁ : IET T) (s : σ) : InductionStep T → IET T → Prop
  | separating {E' R : IET T} {k : ℕ} {b t : Label} : IsCut (H.abs E₁ s) (H.abs E' s) (H.abs R s) k →
      H.Good R s → R.swapped = false → E'.bottom.getLast? = some b → E'.top.getLast? = some t →
      FinishSpec H E₁ s ⟨.separatingConnection, some (b, t), some R⟩ E'
  | nonSeparating {E' : IET T} {b t : Label} {l : List Label} : (H.abs E₁ s).Irreducible → E₁.top = t :: E'.top →
      E₁.bottom = b :: l → b ≠ t → H.len s t = H.len s b →
      MergeTop (H.abs E₁ s) (H.abs E' s) → FinishSpec H E₁ s ⟨.nonSeparatingConnection, some (b, t), none⟩ E'
  | boshernitzan {E' : IET T} : E'.top = E₁.top → E'.bottom = E₁.bottom → (H.abs E₁ s).Irreducible →
      ¬ HeadsEq (H.abs E₁ s) → ¬ PosRelation c (H.abs E₁ s) → (¬ ∀ x ∈ safList c (H.abs E₁ s), x = 0) →
      FinishSpec H E₁ s ⟨.withoutPeriodicTrajectoryBoshernitzan, none, none⟩ E'
  | limit {E' : IET T} : E'.top = E₁.top → E'.bottom = E₁.bottom → (H.abs E₁ s).Irreducible →
      ¬ HeadsEq (H.abs E₁ s) → ((∀ x ∈ safList c (H.abs E₁ s), x = 0) ∨ PosRelation c (H.abs E₁ s)) →
      FinishSpec H E₁ s ⟨.limitReached, none, none⟩ E'

theorem induceFinish_spec (H : LawfulLengths O c ε) {L : PPL} (hL : L.Lawful) {found : Bool} {E : IET T} {s : σ}
    (h : H.Ok E s) (hc : H.CacheOk E s) (ht : H.TrackInv Steps E s) (hsize : E.top.length ≠ 1)
    (ht' : found = false → H.TrackInv (Relation.TransGen RauzyStep) E s)
    (hf : found = true → HeadsEq (H.abs E s)) :
    ∃ step E', E.induceFinish L O found s = .ok (step, E') ∧ FinishSpec H E s step E' ∧ H.Good E' s ∧ E'.swapped = E.swapped := by
  unfold IET.induceFinish
  rcases reduce_spec H E s h with ⟨hr, hirr⟩ | ⟨k, hr, hcut⟩
  · simp only [hr, bind, Except.bind]
    have hv := h.valid
    obtain ⟨t, b, htop, hbot⟩ := hv.heads
    simp only [LawfulLengths.abs] at htop hbot
    obtain ⟨top, htop⟩ : ∃ top, E.top = t :: top := by
      cases h' : E.top with
      | nil => simp [h'] at htop
      | cons x l => simp [h'] at htop; exact ⟨l, by rw [htop]⟩
    obtain ⟨bot, hbot⟩ : ∃ bot, E.bottom = b :: bot := by
      cases h' : E.bottom with
      | nil => simp [h'] at hbot
      | cons x l => simp [h'] at hbot; exact ⟨l, by rw [hbot]⟩
    have hmt : t ∈ E.top := by simp [htop]
    have hmb : b ∈ E.top := hv.perm.mem_iff.mp (by simp [LawfulLengths.abs, hbot])
    obtain ⟨r, hr1, hr2⟩ := H.cmp2_spec s t b h.inv (h.dom t hmt) (h.dom b hmb)
    have hbt : b ≠ t := by
      rintro rfl
      have hl : 1 < E.top.length := by
        have : E.top.length ≠ 0 := by simp [htop]
        omega
      apply hirr 1 (by omega) hl
      simp [LawfulLengths.abs, htop, hbot]
    rw [htop, hbot]
    simp only [hr1]
    by_cases h0 : r = 0
    · simp only [h0, if_true, pure, Except.pure]
      have heq := hr2.mp h0
      have htb : t ∈ bot := by
        have : t ∈ E.bottom := hv.perm.mem_iff.mpr hmt
        rw [hbot, List.mem_cons] at this
        exact this.resolve_left (Ne.symm hbt)
      obtain ⟨l₁, l₂, hbot'⟩ := List.append_of_mem htb
      have hnd : E.bottom.Nodup := hv.nodup_bottom
      have htl : t ∉ l₁ := by
        rw [hbot, hbot'] at hnd
        simp only [List.nodup_cons, List.nodup_append] at hnd
        intro hm
        exact hnd.2.2.2 t hm t (by simp) rfl
      have hmb : IET.mergeBottom b t bot = l₁ ++ b :: l₂ := by rw [hbot']; exact mergeBottom_append b t l₁ l₂ htl
      rw [hmb]
      have hmerge : MergeTop (H.abs E s) (H.abs { E with top := top, bottom := l₁ ++ b :: l₂ } s) := by
        have := MergeTop.mk t b top l₁ l₂ (H.len s) heq.symm
        simp only [LawfulLengths.abs, htop, hbot, hbot']
        exact this
      obtain ⟨_, _, hfwd⟩ := hmerge.fwd hv
      have hok : H.Ok { E with top := top, bottom := l₁ ++ b :: l₂ } s :=
        ⟨h.inv, h.stack, fun a ha => h.dom a (by rw [htop]; exact List.mem_cons_of_mem _ ha), hfwd.valid', h.nonneg⟩
      have hcache : H.CacheOk { E with top := top, bottom := l₁ ++ b :: l₂ } s := by
        intro v hvv
        have hvv : E.safCache = some v := hvv
        rw [hc v hvv]
        apply safList_congr
        intro φ ψ
        have := hmerge.saf_eq φ ψ hv
        unfold LawfulLengths.unswapped
        simp only
        split
        · rw [saf_inv _ _ hv, saf_inv _ _ hfwd.valid', this]
        · exact this.symm
      exact ⟨_, _, rfl, .nonSeparating hirr htop hbot hbt heq hmerge,
        ⟨hok, hcache, ht.shrink (E' := { E with top := top, bottom := l₁ ++ b :: l₂ }) hv rfl (by show top.length < E.top.length; rw [htop]; simp)⟩, rfl⟩
    · have hne : ¬ HeadsEq (H.abs E s) := by
        intro hh
        exact h0 (hr2.mpr (hh t b (by simp [LawfulLengths.abs, htop]) (by simp [LawfulLengths.abs, hbot])))
      have hff : found = false := by
        cases found with
        | false => rfl
        | true => exact absurd (hf rfl) hne
      obtain ⟨bb, hb1, hb2⟩ := boshernitzanNoPeriodicTrajectory_spec H hL h hc
      have hgood : H.Good { E with safCache := some (safList c (H.unswapped E s)) } s :=
        ⟨h.congr rfl rfl, LawfulLengths.CacheOk.some, (ht' hff).congr rfl rfl rfl rfl rfl id⟩
      simp only [h0, if_false, hff, assertM, Bool.not_false, if_true, hb1]
      cases bb with
      | true =>
        obtain ⟨q1, _, q2⟩ := hb2.mp rfl
        exact ⟨_, _, rfl, .boshernitzan rfl rfl hirr hne q2 q1, hgood, rfl⟩
      | false =>
        have hcomp : (∀ x ∈ safList c (H.abs E s), x = 0) ∨ PosRelation c (H.abs E s) := by
          by_contra hcon
          rw [not_or] at hcon
          have h0 : E.top.length ≠ 0 := by simp [htop]
          have := hb2.mpr ⟨hcon.1, by omega, hcon.2⟩
          cases this
        exact ⟨_, _, rfl, .limit rfl rfl hirr hne hcomp, hgood, rfl⟩
  · simp only [hr, bind, Except.bind]
    have hv := h.valid
    have hvl := hcut.valid_left hv
    have hvr := hcut.valid_right hv
    obtain ⟨b, hb⟩ : ∃ b, (E.bottom.take k).getLast? = some b := by
      cases h' : (E.bottom.take k).getLast? with
      | none => exact absurd (List.getLast?_eq_none_iff.mp h') hvl.inv.ne_nil
      | some b => exact ⟨b, rfl⟩
    obtain ⟨t, ht1⟩ : ∃ t, (E.top.take k).getLast? = some t := by
      cases h' : (E.top.take k).getLast? with
      | none => exact absurd (List.getLast?_eq_none_iff.mp h') hvl.ne_nil
      | some b => exact ⟨b, rfl⟩
    simp only [hb, ht1, pure, Except.pure]
    have hlt : k < E.top.length := hcut.lt
    refine ⟨_, _, rfl, .separating (k := k) (R := IET.fresh (E.top.drop k) (E.bottom.drop k)) hcut ?_ rfl hb ht1, ?_, rfl⟩
    · exact ⟨⟨h.inv, h.stack, fun a ha => h.dom a (List.mem_of_mem_drop ha), hvr, h.nonneg⟩, .none rfl, .inl rfl⟩
    · exact ⟨⟨h.inv, h.stack, fun a ha => h.dom a (List.mem_of_mem_take ha), hvl, h.nonneg⟩, .none rfl,
        ht.shrink (E' := { E with top := E.top.take k, bottom := E.bottom.take k, safCache := none }) hv rfl (by show (E.top.take k).length < E.top.length; rw [List.length_take]; omega)⟩

/-! ### The function `induce` -/

/-- The result of `induce`: `E₁` is the IET after the loop. -/
inductive InduceSpec (H : LawfulLengths O c ε) (limit : ℤ) (E : IET T) (s : σ) : InductionStep T → IET T → σ → Prop
  | cylinder : E.top.length = 1 → InduceSpec H limit E s ⟨.cylinder, none, none⟩ E s
  | auto {E' : IET T} {s' : σ} : E.top.length ≠ 1 → 0 < limit ∨ limit = -1 → Moves H (E, s) (E', s') → H.LoopFound E' s' →
      (∀ x ∈ safList c (H.abs E s), x = 0) →
      InduceSpec H limit E s ⟨.withoutPeriodicTrajectoryAutoSimilar, none, none⟩ E' s'
  | finish {E₁ : IET T} {step : InductionStep T} {E' : IET T} {s' : σ} : E.top.length ≠ 1 → Moves H (E, s) (E₁, s') →
      FinishSpec H E₁ s' step E' → (¬ 0 < limit ∧ limit ≠ -1 → s' = s ∧ E₁.top = E.top ∧ E₁.bottom = E.bottom) →
      (limit = -1 → HeadsEq (H.abs E₁ s')) →
      InduceSpec H limit E s step E' s'

theorem inducePhase_spec (H : LawfulLengths O c ε) (fuel : ℕ) (limit : ℤ) (E : IET T) (s : σ) (h : H.Good E s) :
    (E.inducePhase O fuel limit s = .error .fuel ∧ limit = -1) ∨
    ∃ e E' s', E.inducePhase O fuel limit s = .ok (e, E', s') ∧ Moves H (E, s) (E', s') ∧ H.CacheOk E' s' ∧
      (e = .exhausted → H.TrackInv (Relation.TransGen RauzyStep) E' s' ∧ limit ≠ -1) ∧
      (e = .found → H.TrackInv Steps E' s' ∧ HeadsEq (H.abs E' s')) ∧
      (e = .autoSimilar → (∀ x ∈ safList c (H.abs E s), x = 0) ∧ H.TrackInv (Relation.TransGen RauzyStep) E' s' ∧
        H.LoopFound E' s' ∧ (0 < limit ∨ limit = -1)) ∧
      (¬ 0 < limit ∧ limit ≠ -1 → e = .exhausted ∧ s' = s ∧ E'.top = E.top ∧ E'.bottom = E.bottom) := by
  unfold IET.inducePhase
  by_cases hl0 : limit = 0
  · rw [if_pos hl0]
    right
    exact ⟨_, _, _, rfl, .refl, h.cache, fun _ => ⟨h.track, by omega⟩, by simp, by simp, fun _ => ⟨rfl, rfl, rfl, rfl⟩⟩
  · rw [if_neg hl0, saf0_spec H h.ok h.cache]
    simp only [bind, Except.bind]
    have hg : H.Good { E with safCache := some (safList c (H.unswapped E s)) } s :=
      ⟨h.ok.congr rfl rfl, LawfulLengths.CacheOk.some, h.track.congr rfl rfl rfl rfl rfl id⟩
    have m0 : Moves H (E, s) ({ E with safCache := some (safList c (H.unswapped E s)) }, s) := .single (.aux rfl rfl rfl)
    by_cases hl1 : limit = -1
    · rw [if_pos hl1]
      obtain ⟨e, E', s', h1, h2⟩ := induceLoop_spec H (decide (∀ x ∈ safList c (H.abs E s), x = 0)) fuel _ s hg
      rw [h1]
      simp only
      by_cases he : e = .exhausted
      · rw [if_pos he]; exact .inl ⟨rfl, hl1⟩
      · rw [if_neg he]
        right
        refine ⟨e, E', s', rfl, m0.trans h2.moves, h2.cache, fun h => absurd h he, ?_, ?_, fun h => absurd hl1 h.2⟩
        · intro he; obtain ⟨q1, q2, _⟩ := h2.found he; exact ⟨q1, q2⟩
        · intro he; obtain ⟨q1, q2, q3, _⟩ := h2.auto he; exact ⟨by simpa using q1, q2, q3, .inr hl1⟩
    · rw [if_neg hl1]
      obtain ⟨e, E', s', h1, h2⟩ := induceLoop_spec H (decide (∀ x ∈ safList c (H.abs E s), x = 0)) limit.toNat _ s hg
      rw [h1]
      right
      refine ⟨e, E', s', rfl, m0.trans h2.moves, h2.cache, ?_, ?_, ?_, ?_⟩
      · intro he; obtain ⟨q1, _⟩ := h2.exhausted he; exact ⟨q1, hl1⟩
      · intro he; obtain ⟨q1, q2, _⟩ := h2.found he; exact ⟨q1, q2⟩
      · intro he; obtain ⟨q1, q2, q3, q4⟩ := h2.auto he; exact ⟨by simpa using q1, q2, q3, .inl (by omega)⟩
      · intro hn
        have hz : limit.toNat = 0 := by omega
        have he : e = .exhausted := by
          cases e with
          | exhausted => rfl
          | found => exact absurd hz (h2.found rfl).2.2
          | autoSimilar => exact absurd hz (h2.auto rfl).2.2.2
        obtain ⟨_, q, _⟩ := h2.exhausted he
        obtain ⟨rfl, rfl⟩ := q hz
        exact ⟨he, rfl, rfl, rfl⟩

theorem induce_spec (H : LawfulLengths O c ε) {L : PPL} (hL : L.Lawful) (fuel : ℕ) (limit : ℤ) (E : IET T) (s : σ) (h : H.Good E s) :
    (E.induce L O fuel limit s = .error .fuel ∧ limit = -1) ∨
    ∃ step E' s', E.induce L O fuel limit s = .ok (step, E', s') ∧ InduceSpec H limit E s step E' s' ∧ H.Good E' s' ∧
      H.dom s' = H.dom s ∧ (∀ x, x ∉ E.top → H.len s' x = H.len s x) ∧ E'.swapped = E.swapped := by
  unfold IET.induce
  by_cases h1 : E.size = 1
  · right
    simp only [h1, if_true, pure, Except.pure]
    exact ⟨_, _, _, rfl, .cylinder h1, h, rfl, fun _ _ => rfl, rfl⟩
  · simp only [h1, if_false, bind, Except.bind]
    rcases inducePhase_spec H fuel limit E s h with ⟨hp, hl⟩ | ⟨e, E₁, s', hp, hm, hc, he1, he2, he3, he4⟩
    · exact .inl ⟨by simp only [hp], hl⟩
    · right
      simp only [hp]
      have hok := hm.ok h.ok
      by_cases ha : e = .autoSimilar
      · obtain ⟨q1, q2, q3, q4⟩ := he3 ha
        rw [if_pos ha]
        exact ⟨_, _, _, rfl, .auto h1 q4 hm q3 q1, ⟨hok, hc, q2⟩, hm.dom, fun x hx => hm.frame h.ok hx, hm.swapped⟩
      · rw [if_neg ha]
        have hT : H.TrackInv Steps E₁ s' := by
          cases e with
          | exhausted => exact (he1 rfl).1.weaken
          | found => exact (he2 rfl).1
          | autoSimilar => exact absurd rfl ha
        have hlen : E₁.top.length ≠ 1 := by
          have := hm.top_perm.length_eq
          simp only at this
          rw [this]; exact h1
        obtain ⟨step, E', f1, f2, f3, f4⟩ := induceFinish_spec H hL (found := decide (e = .found)) hok hc hT hlen
          (by
            intro hd
            have : e ≠ .found := by simpa using hd
            cases e with
            | exhausted => exact (he1 rfl).1
            | found => exact absurd rfl this
            | autoSimilar => exact absurd rfl ha)
          (by intro hd; exact (he2 (by simpa using hd)).2)
        rw [f1]
        refine ⟨_, _, _, rfl, .finish h1 hm f2 ?_ ?_, f3, hm.dom, fun x hx => hm.frame h.ok hx, f4.trans hm.swapped⟩
        · intro hl; obtain ⟨_, q⟩ := he4 hl; exact q
        · intro hl
          cases e with
          | exhausted => exact absurd hl (he1 rfl).2
          | found => exact (he2 rfl).2
          | autoSimilar => exact absurd rfl ha

end model

end Verif
