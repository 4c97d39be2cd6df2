import Verif.Rounds
import Verif.Proofs.Chunks
import Verif.Props.Split

/-!
# Rounds of induction
-/

namespace Verif

set_option linter.unusedSectionVars false

theorem bindM_ok {α β : Type} {x : M α} {f : α → M β} {b : β} : (x >>= f) = .ok b ↔ ∃ a, x = .ok a ∧ f a = .ok b := by
  cases x with
  | error e => exact ⟨(fun h => by cases h), (fun ⟨_, h, _⟩ => by cases h)⟩
  | ok a => exact ⟨fun h => ⟨a, rfl, h⟩, fun ⟨_, h, h'⟩ => by cases h; exact h'⟩

variable {σ T ε : Type} [CommRing T] [LinearOrder T] [IsStrictOrderedRing T] {O : LengthsOps σ T} {d : ℕ} {c : T →+ (Fin d → ℚ)}

/-! ### Rounds are unique -/

theorem split_unique {a : Label} : ∀ {l₁ l₂ m₁ m₂ : List Label}, (l₁ ++ a :: l₂).Nodup → l₁ ++ a :: l₂ = m₁ ++ a :: m₂ → l₁ = m₁ ∧ l₂ = m₂
  | [], l₂, [], m₂, _, h => by simpa using h
  | [], l₂, x :: m₁, m₂, hn, h => by
    simp only [List.nil_append, List.cons_append, List.cons.injEq] at h
    obtain ⟨rfl, rfl⟩ := h
    simp at hn
  | x :: l₁, l₂, [], m₂, hn, h => by
    simp only [List.nil_append, List.cons_append, List.cons.injEq] at h
    obtain ⟨rfl, rfl⟩ := h
    simp at hn
  | x :: l₁, l₂, y :: m₁, m₂, hn, h => by
    simp only [List.cons_append, List.cons.injEq] at h
    obtain ⟨rfl, h⟩ := h
    obtain ⟨rfl, rfl⟩ := split_unique (List.nodup_cons.mp hn).2 h
    exact ⟨rfl, rfl⟩

theorem RauzyTop.unique {A B C : AIET T} (hA : A.Valid) (h : RauzyTop A B) (h' : RauzyTop A C) : B = C := by
  have hn := hA.inv.nodup
  generalize hA' : A = A' at h'
  cases h with
  | mk a b t l₁ l₂ len hlt =>
    cases h' with
    | mk a' b' t' m₁ m₂ len' hlt' =>
      injection hA' with e1 e2 e3
      injection e1 with e1 e4
      subst e1 e4 e3
      injection e2 with e2 e5
      subst e2
      have hn' : (l₁ ++ a :: l₂).Nodup := (List.nodup_cons.mp hn).2
      obtain ⟨rfl, rfl⟩ := split_unique hn' e5
      rfl

theorem TopPhase.unique {A B C : AIET T} (hA : A.Valid) (h : TopPhase A B) (h' : TopPhase A C) : B = C := by
  obtain ⟨h1, h2⟩ := h
  induction h1 using Relation.ReflTransGen.head_induction_on with
  | refl =>
    rcases Relation.ReflTransGen.cases_head h'.1 with e | ⟨D, e, _⟩
    · exact e
    · exact absurd e (h2 D)
  | head hab hbc ih =>
    rcases Relation.ReflTransGen.cases_head h'.1 with e | ⟨D, e, e'⟩
    · subst e; exact absurd hab (h'.2 _)
    · obtain rfl := RauzyTop.unique hA hab e
      exact ih (RauzyRun.valid hA (.single hab)) ⟨e', h'.2⟩

theorem TopPhase.valid {A B : AIET T} (hA : A.Valid) (h : TopPhase A B) : B.Valid := RauzyRun.valid hA h.1

theorem inv_inj {A B : AIET T} (h : A.inv = B.inv) : A = B := by
  have := congrArg AIET.inv h
  exact this

theorem Round.valid {A B : AIET T} (hA : A.Valid) (h : Round A B) : B.Valid := by
  obtain ⟨C, h1, _, h2, _⟩ := h
  have := TopPhase.valid (h1.valid hA).inv h2
  exact this.inv

theorem Round.unique {A B C : AIET T} (hA : A.Valid) (h : Round A B) (h' : Round A C) : B = C := by
  obtain ⟨D, h1, _, h2, _⟩ := h
  obtain ⟨D', h1', _, h2', _⟩ := h'
  obtain rfl := h1.unique hA h1'
  exact inv_inj (TopPhase.unique (h1.valid hA).inv h2 h2')

/-! ### The loop of `induce` -/

theorem LawfulLengths.level_iff (H : LawfulLengths O c ε) {E : IET T} {s : σ} (h : H.Ok E s) : (H.abs E s).Level ↔ HeadsEq (H.abs E s) := by
  obtain ⟨a, b, ha, hb⟩ := h.valid.heads
  constructor
  · rintro ⟨a', b', ha', hb', e⟩ x y hx hy
    rw [ha'] at hx; cases hx
    rw [hb'] at hy; cases hy
    exact e
  · intro e
    exact ⟨a, b, ha, hb, e a b ha hb⟩

theorem ZorichSpec.phase {H : LawfulLengths O c ε} {E E' : IET T} {s s' : σ} {r : Bool} (h : ZorichSpec H E s r E' s') :
    TopPhase (H.abs E s) (H.abs E' s') := by
  refine ⟨h.run, ?_⟩
  intro C hC
  have hf := h.final
  generalize hA : H.abs E' s' = A at hC
  cases hC with
  | mk a b t l₁ l₂ len hlt =>
    injection hA with e1 e2 e3
    have := hf a b (by rw [e1]; rfl) (by rw [e2]; rfl)
    rw [e3] at this
    exact absurd hlt (not_lt.mpr this)

theorem ZorichSpec.level {H : LawfulLengths O c ε} {E E' : IET T} {s s' : σ} {r : Bool} (h : ZorichSpec H E s r E' s') :
    (H.abs E' s').Level ↔ r = true := by
  rw [H.level_iff h.ok]
  obtain ⟨a, b, ha, hb⟩ := h.ok.valid.heads
  rw [h.ret a b ha hb]
  constructor
  · intro e; exact e a b ha hb
  · intro e x y hx hy
    rw [ha] at hx; cases hx
    rw [hb] at hy; cases hy
    exact e

theorem AIET.level_inv {A : AIET T} : A.inv.Level ↔ A.Level := by
  constructor
  · rintro ⟨a, b, h1, h2, h3⟩; exact ⟨b, a, h2, h1, h3.symm⟩
  · rintro ⟨a, b, h1, h2, h3⟩; exact ⟨b, a, h2, h1, h3.symm⟩

/-- How many rounds the loop makes. When a loop is reported without a round of induction then `p`. -/
def LoopRounds (H : LawfulLengths O c ε) (n : ℕ) (A B : AIET T) (p : Prop) : IET.LoopEnd → Prop
  | .exhausted => Iter Round n A B
  | .found => ∃ m < n, ∃ M, Iter Round m A M ∧ LastRound M B
  | .autoSimilar => ∃ m < n, Iter Round m A B ∧ (m = 0 → p)

/-- When the tracker reports a loop then its time to live has decreased. -/
theorem trackStep_ttl {saf0 : Bool} {E E' : IET T} {s : σ} (h : E.trackStep O saf0 s = .ok (true, E')) : E'.tracker.ttl < E.tracker.ttl := by
  unfold IET.trackStep at h
  cases saf0 with
  | false => cases h
  | true =>
    simp only [if_true, bind, Except.bind] at h
    split at h
    · cases h
    · rename_i v hv
      have ht : v.2.tracker = E.tracker := by
        unfold IET.saf at hv
        split at hv
        · cases hv; rfl
        · simp only [bind, Except.bind, pure, Except.pure] at hv
          split at hv <;> cases hv
          rfl
      split at h
      · cases h
      · unfold IET.trackerLoop at h
        split at h
        · simp only [bind, Except.bind, pure, Except.pure] at h
          split at h <;> cases h
        · rename_i h0
          have : E'.tracker.ttl = v.2.tracker.ttl - 1 := by
            simp only [bind, Except.bind, pure, Except.pure] at h
            repeat' split at h
            all_goals cases h
            rfl
          rw [ht] at this h0
          omega

theorem induceLoop_rounds (H : LawfulLengths O c ε) (saf0 : Bool) : ∀ (n : ℕ) (E : IET T) (s : σ), H.Good E s →
    ∀ e E' s', IET.induceLoop O saf0 n E s = .ok (e, E', s') → LoopRounds H n (H.abs E s) (H.abs E' s') (E'.tracker.ttl < E.tracker.ttl) e := by
  intro n
  induction n with
  | zero => intro E s h e E' s' hr; cases hr; rfl
  | succ n ih =>
    intro E s h e E' s' hr
    obtain ⟨r, E₁, t1, t2, t3, t4, t5, t6, t7⟩ := trackStep_spec H saf0 h.ok h.cache h.track
    have habs : H.abs E₁ s = H.abs E s := by simp [LawfulLengths.abs, t2, t3]
    have ok1 : H.Ok E₁ s := h.ok.congr t2 t3
    cases r with
    | true =>
      simp only [IET.induceLoop, t1, bind, Except.bind, if_true, pure, Except.pure] at hr
      cases hr
      exact ⟨0, by omega, habs.symm, fun _ => trackStep_ttl t1⟩
    | false =>
      have tr1 := t6 rfl
      obtain ⟨r2, E₂, s₂, z1, z2⟩ := zorichInduction_spec H E₁ s ok1
      have m2 : Moves H (E₁, s) (E₂, s₂) := .single (.top ok1 z2)
      have tr2 : H.TrackInv Steps E₂ s₂ := tr1.steps_weak ok1.valid z2.dom z2.tracker z2.run.steps
      have c2 : H.CacheOk E₂ s₂ := m2.cache ok1 t5 z2.cache
      have p2 := z2.phase
      have l2 := z2.level
      rw [habs] at p2
      cases r2 with
      | true =>
        simp only [IET.induceLoop, t1, z1, bind, Except.bind, if_true, pure, Except.pure, Bool.false_eq_true, if_false] at hr
        cases hr
        exact ⟨0, by omega, _, rfl, .inl ⟨p2, l2.mpr rfl⟩⟩
      | false =>
        have ok2 := z2.ok.swap
        obtain ⟨r3, E₃, s₃, y1, y2⟩ := zorichInduction_spec H E₂.swap s₂ ok2
        have y2' : ZorichSpec H E₂.swap s₂ r3 E₃.swap.swap s₃ := by simpa using y2
        have m3 : Moves H (E₂, s₂) (E₃.swap, s₃) := .single (.bot z2.ok y2')
        have htr3 : E₃.swap.tracker = E₂.tracker := by simpa using y2.tracker
        have c3 : H.CacheOk E₃.swap s₃ := m3.cache z2.ok c2 (by simpa using y2.cache)
        have hv3 := y2.ok.swap
        have p3 : BottomPhase (H.abs E₂ s₂) (H.abs E₃.swap s₃) := y2.phase
        have l3 : (H.abs E₃.swap s₃).Level ↔ r3 = true := by
          rw [← AIET.level_inv]; exact y2.level
        have l2' : ¬ (H.abs E₂ s₂).Level := fun h => by simpa using l2.mp h
        cases r3 with
        | true =>
          simp only [IET.induceLoop, t1, z1, y1, bind, Except.bind, if_true, pure, Except.pure, Bool.false_eq_true, if_false] at hr
          cases hr
          exact ⟨0, by omega, _, rfl, .inr ⟨_, p2, l2', p3, l3.mpr rfl⟩⟩
        | false =>
          have l3' : ¬ (H.abs E₃.swap s₃).Level := fun h => by simpa using l3.mp h
          have hround : Round (H.abs E s) (H.abs E₃.swap s₃) := ⟨_, p2, l2', p3, l3'⟩
          obtain ⟨a, b, ha, hb⟩ := z2.ok.valid.heads
          have hlt : H.len s₂ a < H.len s₂ b := by
            have h1 := z2.final a b ha hb
            have h2 := z2.ret a b ha hb
            exact lt_of_le_of_ne h1 (fun h3 => by simpa using h2.mpr h3)
          have hT : Relation.TransGen RauzyStep (H.abs E₂ s₂) (H.abs E₃.swap s₃) :=
            transGen_inv (y2.transGen (a := b) (b := a) hb ha hlt)
          have g3 : H.Good E₃.swap s₃ := ⟨hv3, c3, tr2.steps_strong z2.ok.valid y2.dom htr3 hT⟩
          simp only [IET.induceLoop, t1, z1, y1, bind, Except.bind, Bool.false_eq_true, if_false] at hr
          have hi := ih E₃.swap s₃ g3 e E' s' hr
          cases e with
          | exhausted => exact ⟨_, hround, hi⟩
          | found =>
            obtain ⟨m, hm, M, h1, h2⟩ := hi
            exact ⟨m + 1, by omega, M, ⟨_, hround, h1⟩, h2⟩
          | autoSimilar =>
            obtain ⟨m, hm, h1, -⟩ := hi
            exact ⟨m + 1, by omega, ⟨_, hround, h1⟩, by omega⟩

/-- How many rounds `induce` makes; `A` is the state after these rounds and before a connection is removed. -/
inductive InduceRounds (H : LawfulLengths O c ε) (limit : ℤ) (E : IET T) (s : σ) : InductionStep T → IET T → σ → Prop
  | cylinder : E.top.length = 1 → InduceRounds H limit E s ⟨.cylinder, none, none⟩ E s
  | auto {E' : IET T} {s' : σ} {m : ℕ} : (limit ≠ -1 → m < limit.toNat) → Iter Round m (H.abs E s) (H.abs E' s') →
      (m = 0 → E'.tracker.ttl < E.tracker.ttl) → InduceRounds H limit E s ⟨.withoutPeriodicTrajectoryAutoSimilar, none, none⟩ E' s'
  | all {E₁ : IET T} {step : InductionStep T} {E' : IET T} {s' : σ} : limit ≠ -1 → Iter Round limit.toNat (H.abs E s) (H.abs E₁ s') →
      FinishSpec H E₁ s' step E' → InduceRounds H limit E s step E' s'
  | found {E₁ : IET T} {step : InductionStep T} {E' : IET T} {s' : σ} {m : ℕ} {M : AIET T} : (limit ≠ -1 → m < limit.toNat) →
      Iter Round m (H.abs E s) M → LastRound M (H.abs E₁ s') → FinishSpec H E₁ s' step E' → HeadsEq (H.abs E₁ s') →
      InduceRounds H limit E s step E' s'

theorem inducePhase_rounds (H : LawfulLengths O c ε) {fuel : ℕ} {limit : ℤ} {E : IET T} {s : σ} (h : H.Good E s) {e : IET.LoopEnd} {E' : IET T} {s' : σ}
    (hr : E.inducePhase O fuel limit s = .ok (e, E', s')) :
    ∃ n, (limit ≠ -1 → n = limit.toNat) ∧ (limit = -1 → e ≠ .exhausted) ∧ LoopRounds H n (H.abs E s) (H.abs E' s') (E'.tracker.ttl < E.tracker.ttl) e := by
  unfold IET.inducePhase at hr
  by_cases hl0 : limit = 0
  · rw [if_pos hl0] at hr
    cases hr
    exact ⟨0, by omega, by omega, rfl⟩
  · rw [if_neg hl0, saf0_spec H h.ok h.cache] at hr
    simp only [bind, Except.bind] at hr
    have hg : H.Good { E with safCache := some (safList c (H.unswapped E s)) } s :=
      ⟨h.ok.congr rfl rfl, LawfulLengths.CacheOk.some, h.track.congr rfl rfl rfl rfl rfl id⟩
    by_cases hl1 : limit = -1
    · rw [if_pos hl1] at hr
      split at hr
      · cases hr
      · rename_i v hv
        split at hr
        · cases hr
        · rename_i hne
          cases hr
          exact ⟨fuel, by omega, fun _ => hne, induceLoop_rounds H _ _ _ _ hg _ _ _ hv⟩
    · rw [if_neg hl1] at hr
      exact ⟨limit.toNat, fun _ => rfl, fun h => absurd h hl1, induceLoop_rounds H _ _ _ _ hg _ _ _ hr⟩

theorem induce_rounds (H : LawfulLengths O c ε) {L : PPL} (hL : L.Lawful) {fuel : ℕ} {limit : ℤ} {E : IET T} {s : σ} (h : H.Good E s)
    {step : InductionStep T} {E' : IET T} {s' : σ} (hr : E.induce L O fuel limit s = .ok (step, E', s')) :
    InduceRounds H limit E s step E' s' := by
  unfold IET.induce at hr
  by_cases h1 : E.size = 1
  · simp only [h1, if_true, pure, Except.pure] at hr
    cases hr
    exact .cylinder h1
  · simp only [h1, if_false, bind, Except.bind] at hr
    rcases inducePhase_spec H fuel limit E s h with ⟨hp, hl⟩ | ⟨e, E₁, s₁, hp, hm, hc, he1, he2, he3, he4⟩
    · rw [hp] at hr; cases hr
    · obtain ⟨n, hn1, hn2, hn3⟩ := inducePhase_rounds H h hp
      simp only [hp] at hr
      have hok := hm.ok h.ok
      by_cases ha : e = .autoSimilar
      · rw [if_pos ha] at hr
        cases hr
        subst ha
        obtain ⟨m, h2, h3, h4⟩ := hn3
        exact .auto (fun hl => by have := hn1 hl; omega) h3 h4
      · rw [if_neg ha] at hr
        have hT : H.TrackInv Steps E₁ s₁ := by
          cases e with
          | exhausted => exact (he1 rfl).1.weaken
          | found => exact (he2 rfl).1
          | autoSimilar => exact absurd rfl ha
        have hlen : E₁.top.length ≠ 1 := by
          have := hm.top_perm.length_eq
          simp only at this
          rw [this]; exact h1
        obtain ⟨step', E'', f1, f2, f3, f4⟩ := induceFinish_spec H hL (found := decide (e = .found)) hok hc hT hlen
          (by
            intro hd
            have : e ≠ .found := by simpa using hd
            cases e with
            | exhausted => exact (he1 rfl).1
            | found => exact absurd rfl this
            | autoSimilar => exact absurd rfl ha)
          (by intro hd; exact (he2 (by simpa using hd)).2)
        rw [f1] at hr
        cases hr
        cases e with
        | exhausted =>
          have hl : limit ≠ -1 := fun h => hn2 h rfl
          exact .all hl (by rw [← hn1 hl]; exact hn3) f2
        | found =>
          obtain ⟨m, h2, M, h3, h4⟩ := hn3
          exact .found (fun hl => by have := hn1 hl; omega) h3 h4 f2 (he2 rfl).2
        | autoSimilar => exact absurd rfl ha

/-- The loop of component.cc:186-203 is a single call of `induce` whose limit is not larger; it is smaller only when there is a result. -/
theorem chunks_induce (H : LawfulLengths O c ε) {L : PPL} (hL : L.Lawful) (cost : Option ℤ) (hcost : ∀ x, cost = some x → 0 < x) :
    ∀ (n : ℕ) (limit : ℤ) (E : IET T) (s : LWC σ), limit ≠ -1 → limit.toNat < n → (LWC.lawful H).Good E s →
    ∃ k step E' s', k ≤ limit ∧ k ≠ -1 ∧ ((0 ≤ limit → 0 ≤ k) ∧ (0 < limit → 0 < k)) ∧ Decomp.chunks L O cost n limit E s = .ok (step, E', s') ∧
      E.induce L (LWC.ops O) 0 k s = .ok (step, E', s') ∧ (step.result = .limitReached → k = limit) := by
  intro n
  induction n with
  | zero => intro limit E s _ h; omega
  | succ n ih =>
    intro limit E s hl hn hg
    obtain ⟨steps, hsteps, hne, hle⟩ : ∃ steps : ℤ, Decomp.chunkSize cost limit = steps ∧ steps ≠ -1 ∧ (limit - steps = 0 ∨ (0 < limit - steps ∧ 0 < steps)) := by
      cases cost with
      | none => exact ⟨limit, rfl, hl, .inl (by omega)⟩
      | some x =>
        have hx := hcost x rfl
        by_cases h : limit < 2 * x
        · exact ⟨limit, if_pos h, hl, .inl (by omega)⟩
        · exact ⟨x, if_neg h, by omega, .inr (by omega)⟩
    simp only [Decomp.chunks, bind, Except.bind, pure, Except.pure]
    rw [hsteps]
    rcases induce_spec (LWC.lawful H) hL 0 steps E s hg with ⟨_, h⟩ | ⟨step, E', s', h1, h2, h3, h4, h5, h6⟩
    · exact absurd h hne
    · rw [h1]
      simp only
      by_cases hr : step.result = .limitReached ∧ limit - steps ≠ 0
      · rw [if_pos hr]
        obtain ⟨k, step', E'', s'', g1, g2, ⟨g0, -⟩, g3, g4, g5⟩ := ih (limit - steps) E' s' (by omega) (by omega) h3
        have hm := h2.stepSpec.limit_moves h6 hr.1
        have hsize : E'.size = E.size := (Moves.top_perm hm).length_eq
        obtain ⟨a, ha⟩ : ∃ a : ℕ, steps = a := ⟨steps.toNat, by omega⟩
        have hk : 0 ≤ k := g0 (by omega)
        obtain ⟨b, hb⟩ : ∃ b : ℕ, k = b := ⟨k.toNat, by omega⟩
        refine ⟨(a + b : ℕ), step', E'', s'', by push_cast; omega, by omega, by omega, g3, ?_, ?_⟩
        · rw [ha] at h1
          rw [← split_aux L h1 hr.1 hsize, ← hb]
          exact g4
        · intro e
          have := g5 e
          push_cast
          omega
      · rw [if_neg hr]
        exact ⟨steps, step, E', s', by omega, hne, by omega, rfl, h1, fun e => by
          by_contra hc
          exact hr ⟨e, by omega⟩⟩

end Verif
