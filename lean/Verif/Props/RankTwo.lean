import Verif.Proofs.Settle
import Verif.Examples
import Verif.Props.Towers

/-!
# C68: lengths with two rational coordinates decompose completely

When the lengths have two rational coordinates which determine them, e.g., when they are in a quadratic number field, then no component withstands
decomposition forever.
-/

namespace Verif

set_option linter.unusedSectionVars false

variable {σ T ε : Type} [CommRing T] [LinearOrder T] [IsStrictOrderedRing T] [Archimedean T] {O : LengthsOps σ T} {c : T →+ (Fin 2 → ℚ)}

/-- **C68** For every IET in every reachable state, there is a number of rounds of induction that suffices: with this limit, and with all larger limits,
`induce()` does not report LIMIT_REACHED. -/
theorem C68_induce (H : LawfulLengths O c ε) (hc : ∀ x, c x = 0 → x = 0) {L : PPL} (hL : L.Lawful) {w : World σ T} (h : Reachable H L w)
    {E : IET T} (hE : E ∈ w.pieces) :
    ∃ N : ℕ, ∀ limit : ℕ, N ≤ limit → ∀ fuel, ∃ step E' s', E.induce L O fuel limit w.lengths = .ok (step, E', s') ∧ step.result ≠ .limitReached := by
  have hg := h.good hL hE
  obtain ⟨N, hN⟩ := exists_settles c hc hg.ok.valid
  refine ⟨N, fun limit hl fuel => ?_⟩
  rcases induce_spec H hL fuel limit E w.lengths hg with ⟨-, h1⟩ | ⟨step, E', s', h1, -, hg', -⟩
  · omega
  refine ⟨step, E', s', h1, fun hr => ?_⟩
  cases induce_rounds H hL hg h1 with
  | cylinder => cases hr
  | auto => cases hr
  | all _ hit hf =>
    cases hf with
    | separating => cases hr
    | nonSeparating => cases hr
    | boshernitzan => cases hr
    | limit _ _ t3 _ t5 =>
      rw [Int.toNat_natCast] at hit
      exact hN limit hl _ hit t3 (t5.elim (posRelation_of_saf hc (rounds_valid hg.ok.valid hit)) id)
  | found _ _ _ hf hh =>
    cases hf with
    | separating => cases hr
    | nonSeparating => cases hr
    | boshernitzan => cases hr
    | limit _ _ _ t4 => exact absurd hh t4

/-- **C68** For every component of every state of a decomposition, there is a number of rounds of induction that suffices: with this limit, and with all larger
limits, `decompositionStep()` does not report LIMIT_REACHED. -/
theorem C68_decompositionStep (H : LawfulLengths O c ε) (hc : ∀ x, c x = 0 → x = 0) {L : PPL} (hL : L.Lawful) {E : IET T} {s : σ} (hE : H.Ok E s)
    {D : Decomp σ T} {steps : List DStep} (h : DReach L O E s D steps) {i : ℕ} (hi : i < D.comps.length) :
    ∃ N : ℕ, ∀ limit : ℕ, N ≤ limit → ∀ fuel, ∃ step D', D.decompositionStep L O fuel limit i = .ok (step, D') ∧ step.result ≠ .limitReached := by
  have hinv := h.inv hL H (ι := AddMonoidHom.id T) (fun _ _ h => h) hE
  have hx := List.getElem?_eq_getElem hi
  obtain ⟨N, hN⟩ := exists_settles c hc (hinv.good _ (List.getElem_mem hi)).ok.valid
  refine ⟨N, fun limit hl fuel => ?_⟩
  obtain ⟨step, D', h1, -⟩ := decompositionStepBounded_spec (fun _ _ h => h) hL hinv hx (limit := (limit : ℤ)) (by omega)
  refine ⟨step, D', ?_, fun hr => ?_⟩
  · unfold Decomp.decompositionStep
    rw [if_neg (by omega), h1]
  · obtain ⟨x', -, -, h2, h3, h4, -⟩ := bounded_rounds hL hc hinv hx h1 hr
    exact hN limit hl _ h2 h3 h4

/-- **C68** `decompositionStep()` without a limit returns, unless the SAF invariant of the component is zero and there are `2 ^ 30 - 1` rounds of induction
without a connection so that the limit, an `int`, could overflow. -/
theorem C68_unlimited (H : LawfulLengths O c ε) (hc : ∀ x, c x = 0 → x = 0) {L : PPL} (hL : L.Lawful) {E : IET T} {s : σ} (hE : H.Ok E s)
    {D : Decomp σ T} {steps : List DStep} (h : DReach L O E s D steps) {i : ℕ} {x : Comp T} (hi : D.comps[i]? = some x)
    (hshort : (∀ v ∈ safList c (H.abs x.iet D.lengths.inner), v = 0) → ¬ ∃ n B, 2 ^ 30 - 1 ≤ n ∧ Iter Round n (H.abs x.iet D.lengths.inner) B) :
    ∃ fuel step D', step.result ≠ .limitReached ∧ ∀ n, fuel ≤ n → D.decompositionStep L O n (-1) i = .ok (step, D') := by
  have hinv := h.inv hL H (ι := AddMonoidHom.id T) (fun _ _ h => h) hE
  obtain ⟨N, hN⟩ := exists_settles c hc (hinv.good _ (List.mem_of_getElem? hi)).ok.valid
  obtain ⟨r, h1, ⟨step, D', rfl⟩ | ⟨-, h2, h3⟩⟩ := step_settles hL hc hinv hi hN
  · refine ⟨N + 2, step, D', ?_, h1⟩
    obtain ⟨_, -, -, hl, -⟩ := h.effect hL H hE (h1 (N + 2) (le_refl _))
    exact hl rfl
  · exact absurd h3 (hshort h2)

/-- In some state of the decomposition, there is a component for which the limit of the induction, an `int`, could overflow: its SAF invariant is zero, and there are
`2 ^ 30 - 1` rounds of induction without a connection. -/
def MayOverflow (H : LawfulLengths O c ε) (L : PPL) (E : IET T) (s : σ) : Prop :=
  ∃ D steps, DReach L O E s D steps ∧ ∃ x ∈ D.comps, (∀ v ∈ safList c (H.abs x.iet D.lengths.inner), v = 0) ∧
    ∃ n B, 2 ^ 30 - 1 ≤ n ∧ Iter Round n (H.abs x.iet D.lengths.inner) B

section

variable {σ T ε : Type} [CommRing T] [LinearOrder T] [IsStrictOrderedRing T] {O : LengthsOps σ T} {d : ℕ} {c : T →+ (Fin d → ℚ)}

/-- In all states of the decomposition, `decompositionStep()` with this limit returns and does not report LIMIT_REACHED. -/
def NeverLimited (L : PPL) (O : LengthsOps σ T) (E : IET T) (s : σ) (limit : ℤ) : Prop :=
  ∀ {D : Decomp σ T} {steps : List DStep} {i : ℕ} {x : Comp T}, DReach L O E s D steps → D.comps[i]? = some x →
    ∃ fuel step D', step.result ≠ .limitReached ∧ ∀ n, fuel ≤ n → D.decompositionStep L O n limit i = .ok (step, D')

theorem decomposeComponent_settles (H : LawfulLengths O c ε) {L : PPL} (hL : L.Lawful) {E : IET T} {s : σ} (hE : H.Ok E s) {limit : ℤ}
    (hall : NeverLimited L O E s limit) {target : Comp T → Bool}
    (htarget : ∀ x : Comp T, x.cylinder = some true ∨ x.withoutPeriodicTrajectory = some true → target x = true) :
    ∀ (m i : ℕ) {D : Decomp σ T} {steps : List DStep} {x : Comp T}, DReach L O E s D steps → D.comps[i]? = some x →
    x.iet.top.length ≤ m → ∃ F D', ∀ n, F ≤ n → D.decomposeComponent L O target limit n i = .ok (true, D') := by
  intro m
  induction m with
  | zero =>
    intro i D steps x h hi hm
    have := (h.labels H hL hE (List.mem_of_getElem? hi)).2.1
    exact absurd (List.eq_nil_of_length_eq_zero (by omega)) this
  | succ m ih =>
    intro i D steps x h hi hm
    have hx := List.mem_of_getElem? hi
    by_cases ht : target x = true
    · refine ⟨1, D, fun n hn => ?_⟩
      obtain ⟨n, rfl⟩ : ∃ n', n = n' + 1 := ⟨n - 1, by omega⟩
      unfold Decomp.decomposeComponent
      simp only [Decomp.comp_ok hi, bind, Except.bind, pure, Except.pure]
      rw [if_pos ht]
    obtain ⟨F₀, step, D₁, hr, hstep⟩ := hall h hi
    have hstep₀ := hstep F₀ (le_refl _)
    obtain ⟨x₀, hi', he, -, -⟩ := h.effect hL H hE hstep₀
    rw [hi] at hi'
    cases hi'
    have h1 : DReach L O E s D₁ (steps ++ [step]) := .step F₀ limit i h hstep₀
    have hil := (List.getElem?_eq_some_iff.mp hi).1
    obtain ⟨comps₁, lengths₁⟩ := D₁
    simp only at he
    cases he with
    | @same x' a1 a2 a3 a4 a5 a6 a7 a8 a9 a10 =>
      have hx' : (⟨D.comps.set i x', lengths₁⟩ : Decomp σ T).comps[i]? = some x' := by
        simp only; rw [List.getElem?_set_self hil]
      have htx : target x' = true := by
        apply htarget
        by_cases e : step.result = .cylinder
        · exact .inl (a8 e).1
        · refine .inr (a9 ?_).2
          revert hr a4 a5 a10 e
          cases step.result <;> simp
      refine ⟨F₀ + 2, ⟨D.comps.set i x', lengths₁⟩, fun n hn => ?_⟩
      obtain ⟨n, rfl⟩ : ∃ n', n = n' + 2 := ⟨n - 2, by omega⟩
      rw [Decomp.decomposeComponent]
      simp only [Decomp.comp_ok hi, bind, Except.bind, pure, Except.pure]
      rw [if_neg ht, hstep (n + 1) (by omega)]
      simp only
      rw [if_neg hr, a2]
      simp only
      rw [Decomp.decomposeComponent]
      simp only [Decomp.comp_ok hx', bind, Except.bind, pure, Except.pure]
      rw [if_pos htx]
    | @split x' y conn a1 a2 a3 a4 a5 a6 =>
      have hlen := a4.length_eq
      rw [List.length_append] at hlen
      have p1 := List.length_pos_of_ne_nil a5
      have p2 := List.length_pos_of_ne_nil a6
      have hy : (⟨D.comps.set i x' ++ [y], lengths₁⟩ : Decomp σ T).comps[D.comps.length]? = some y := by
        simp only
        rw [List.getElem?_append_right (by simp)]
        simp
      have hx' : (⟨D.comps.set i x' ++ [y], lengths₁⟩ : Decomp σ T).comps[i]? = some x' := by
        simp only
        rw [List.getElem?_append_left (by simpa using hil), List.getElem?_set_self hil]
      obtain ⟨F₂, D₂, r2⟩ := ih D.comps.length h1 hy (by omega)
      obtain ⟨steps₂, q1, -, -, q4, -⟩ := decomposeComponent_spec H hL hE F₂ _ h1 (r2 F₂ (le_refl _))
      have hx₂ : D₂.comps[i]? = some x' := by
        rw [q4 i (by simp; omega) (by omega), hx']
      obtain ⟨F₃, D₃, r3⟩ := ih i q1 hx₂ (by omega)
      refine ⟨F₀ + F₂ + F₃ + 1, D₃, fun n hn => ?_⟩
      obtain ⟨n, rfl⟩ : ∃ n', n = n' + 1 := ⟨n - 1, by omega⟩
      rw [Decomp.decomposeComponent]
      simp only [Decomp.comp_ok hi, bind, Except.bind, pure, Except.pure]
      rw [if_neg ht, hstep n (by omega)]
      simp only
      rw [if_neg hr, a3]
      simp only [r2 n (by omega), r3 n (by omega), Bool.and_self]
    | @merge x' conn a1 a2 a3 a4 a5 =>
      have hlen := a4.length_eq
      rw [List.length_cons] at hlen
      have hx' : (⟨D.comps.set i x', lengths₁⟩ : Decomp σ T).comps[i]? = some x' := by
        simp only; rw [List.getElem?_set_self hil]
      obtain ⟨F₂, D₂, r2⟩ := ih i h1 hx' (by omega)
      refine ⟨F₀ + F₂ + 1, D₂, fun n hn => ?_⟩
      obtain ⟨n, rfl⟩ : ∃ n', n = n' + 1 := ⟨n - 1, by omega⟩
      rw [Decomp.decomposeComponent]
      simp only [Decomp.comp_ok hi, bind, Except.bind, pure, Except.pure]
      rw [if_neg ht, hstep n (by omega)]
      simp only
      rw [if_neg hr, a3]
      exact r2 n (by omega)

theorem decomposeAll_settles (H : LawfulLengths O c ε) {L : PPL} (hL : L.Lawful) {E : IET T} {s : σ} (hE : H.Ok E s) {limit : ℤ}
    (hall : NeverLimited L O E s limit) {target : Comp T → Bool}
    (htarget : ∀ x : Comp T, x.cylinder = some true ∨ x.withoutPeriodicTrajectory = some true → target x = true) :
    ∀ (is : List ℕ) {D : Decomp σ T} {steps : List DStep}, DReach L O E s D steps → (∀ i ∈ is, i < D.comps.length) →
    ∃ F D', ∀ n, F ≤ n → D.decomposeAll L O target limit n is = .ok (true, D')
  | [], D, _, _, _ => ⟨0, D, fun _ _ => rfl⟩
  | i :: is, D, steps, h, hi => by
    have hil := hi i (by simp)
    obtain ⟨F₁, D₁, h1⟩ := decomposeComponent_settles H hL hE hall htarget _ i h (List.getElem?_eq_getElem hil) (le_refl _)
    obtain ⟨steps₁, q1, -, q3, -⟩ := decomposeComponent_spec H hL hE F₁ i h (h1 F₁ (le_refl _))
    obtain ⟨F₂, D₂, h2⟩ := decomposeAll_settles H hL hE hall htarget is q1 (fun j hj => lt_of_lt_of_le (hi j (List.mem_cons_of_mem _ hj)) q3)
    refine ⟨F₁ + F₂, D₂, fun n hn => ?_⟩
    unfold Decomp.decomposeAll
    simp only [h1 n (by omega), bind, Except.bind, if_true]
    exact h2 n (by omega)

end

/-- **C68** From every state of a decomposition, `decompose()` returns true (unless an `int` could overflow since some component with vanishing SAF invariant
admits more than a billion rounds of induction) and all components are known to be cylinders or known to be without periodic trajectories then. -/
theorem C68_decompose (H : LawfulLengths O c ε) (hc : ∀ x, c x = 0 → x = 0) {L : PPL} (hL : L.Lawful) {E : IET T} {s : σ} (hE : H.Ok E s)
    (hover : ¬ MayOverflow H L E s) {D : Decomp σ T} {steps : List DStep} (h : DReach L O E s D steps) :
    ∃ fuel D', (∀ n, fuel ≤ n → D.decompose L O Decomp.defaultTarget (-1) n = .ok (true, D')) ∧
      ∀ x ∈ D'.comps, (x.cylinder = some true ∧ x.withoutPeriodicTrajectory = some false) ∨
        (x.cylinder = some false ∧ x.withoutPeriodicTrajectory = some true) := by
  obtain ⟨F, D', h1⟩ := decomposeAll_settles H hL hE (limit := -1)
    (fun {D steps _ x} h hi => C68_unlimited H hc hL hE h hi (fun h1 h2 => hover ⟨D, steps, h, x, List.mem_of_getElem? hi, h1, h2⟩)) (target := Decomp.defaultTarget) (by
    rintro x (hx | hx) <;> simp [Decomp.defaultTarget, hx]) (List.range D.comps.length) h (fun i hi => List.mem_range.mp hi)
  exact ⟨F, D', h1, C38_default H hL hE h (h1 F (le_refl _))⟩

/-! ### An example with lengths in `ℤ[√2]` -/

theorem Examples.q2_faithful : ∀ x, Examples.q2Coef x = 0 → x = 0 := by
  intro x hx
  have h0 := congrFun hx 0
  have h1 := congrFun hx 1
  simp [Examples.q2Coef] at h0 h1
  exact Zsqrtd.ext h0 h1

instance Examples.q2_archimedean : Archimedean Examples.Q2 where
  arch x y hy := by
    refine ⟨Examples.bound x * Examples.bound y, ?_⟩
    rw [nsmul_eq_mul]
    have h1 := Examples.le_bound x
    have h2 : ((Examples.bound x : ℕ) : Examples.Q2) * 1 ≤ (Examples.bound x : ℕ) * (y * (Examples.bound y : ℕ)) :=
      mul_le_mul_of_nonneg_left (Examples.one_le_mul_bound hy) (by positivity)
    push_cast
    linarith

/-- The lengths `1 + 2√2`, `3 - √2`, `√2`, `5 - 3√2`. -/
example : ∃ D, Decomp.make (SLengths.ops Examples.q2Arith) Examples.q2IET Examples.q2State = .ok D ∧
    ∃ N : ℕ, ∀ limit : ℕ, N ≤ limit → ∀ fuel, ∃ step D', D.decompositionStep PPL.ideal (SLengths.ops Examples.q2Arith) fuel limit 0 = .ok (step, D') ∧
      step.result ≠ .limitReached := by
  obtain ⟨D, h1, h2, -⟩ := Decomp.make_spec Examples.hQ2 (ι := AddMonoidHom.id Examples.Q2) (fun _ _ h => h) Examples.q2_ok
  exact ⟨D, h1, C68_decompositionStep Examples.hQ2 Examples.q2_faithful PPL.ideal_lawful Examples.q2_ok (.init h1) (by rw [h2]; simp)⟩

/-- There are no rounds of induction when the first intervals have the same length. -/
theorem Round.not_level {A B : AIET T} (h : Round A B) : ¬ A.Level := by
  obtain ⟨C, ⟨h1, -⟩, h2, -⟩ := h
  rintro ⟨a, b, ha, hb, e⟩
  rcases Relation.ReflTransGen.cases_head h1 with rfl | ⟨X, hX, -⟩
  · exact h2 ⟨a, b, ha, hb, e⟩
  · cases hX with
    | mk a' b' t l₁ l₂ len hlt =>
      cases ha
      cases hb
      exact hlt.ne' e

omit [Archimedean T] in
theorem DReach.sum_length {d : ℕ} {c : T →+ (Fin d → ℚ)} (H : LawfulLengths O c ε) {L : PPL} (hL : L.Lawful) {E : IET T} {s : σ} (hE : H.Ok E s) {D : Decomp σ T}
    {steps : List DStep} (h : DReach L O E s D steps) : (D.comps.map (fun x => x.iet.top.length)).sum ≤ E.top.length := by
  have hset : ∀ {comps : List (Comp T)} {i : ℕ} {x x' : Comp T}, comps[i]? = some x →
      ((comps.set i x').map (fun x => x.iet.top.length)).sum + x.iet.top.length = (comps.map (fun x => x.iet.top.length)).sum + x'.iet.top.length := by
    intro comps
    induction comps with
    | nil => intro i x x' h; simp at h
    | cons z comps ih =>
      intro i x x' h
      cases i with
      | zero => simp at h; subst h; simp; omega
      | succ i =>
        have := ih (x' := x') (by simpa using h)
        simp only [List.set_cons_succ, List.map_cons, List.sum_cons]
        omega
  induction h with
  | init h =>
    obtain ⟨D', h1, h2, -⟩ := Decomp.make_spec H (ι := AddMonoidHom.id T) (fun _ _ h => h) hE
    rw [h] at h1
    cases h1
    rw [h2]
    simp [IET.fresh]
  | @step D D' _ _ fuel limit i h hr ih =>
    obtain ⟨x, hi, he, -⟩ := h.effect hL H hE hr
    obtain ⟨comps', lengths'⟩ := D'
    simp only at he
    cases he with
    | @same x' _ _ _ _ _ a6 =>
      have := hset (x' := x') hi
      have := a6.length_eq
      simp only
      omega
    | @split x' y _ _ _ _ a4 =>
      have := hset (x' := x') hi
      have := a4.length_eq
      rw [List.length_append] at this
      simp only [List.map_append, List.sum_append, List.map_cons, List.map_nil, List.sum_cons, List.sum_nil]
      omega
    | @merge x' _ _ _ _ a4 =>
      have := hset (x' := x') hi
      have := a4.length_eq
      rw [List.length_cons] at this
      simp only
      omega

/-- With two intervals and a non-zero SAF invariant, i.e., for irrational rotations, nothing overflows. -/
theorem not_mayOverflow_rotation (H : LawfulLengths O c ε) {L : PPL} (hL : L.Lawful) {E : IET T} {s : σ} (hE : H.Ok E s) (htwo : E.top.length = 2)
    (hsaf : ¬ ∀ v ∈ safList c (H.abs E s), v = 0) : ¬ MayOverflow H L E s := by
  rintro ⟨D, steps, h, x, hx, h0, n, B, hn, hB⟩
  have hinv := h.inv hL H (ι := AddMonoidHom.id T) (fun _ _ h => h) hE
  have hv := (hinv.good x hx).ok.valid
  obtain ⟨n, rfl⟩ : ∃ m, n = m + 1 := ⟨n - 1, by omega⟩
  obtain ⟨C, hr, -⟩ := hB
  have hsum := h.sum_length H hL hE
  have hlen : x.iet.top.length ≠ 1 := by
    intro e
    obtain ⟨a, ha⟩ := List.length_eq_one_iff.mp e
    have hb : x.iet.bottom = [a] := by
      have hp : x.iet.bottom.Perm x.iet.top := hv.perm
      rw [ha] at hp
      exact List.perm_singleton.mp hp
    exact hr.not_level ⟨a, a, by simp [LawfulLengths.abs, ha], by simp [LawfulLengths.abs, hb], rfl⟩
  have hpos : ∀ z ∈ D.comps, 0 < z.iet.top.length := fun z hz => List.length_pos_of_ne_nil (h.labels H hL hE hz).2.1
  have hone : D.comps = [x] := by
    have hx1 := hpos x hx
    obtain ⟨l₁, l₂, e⟩ := List.append_of_mem hx
    rw [e] at hsum hpos ⊢
    simp only [List.map_append, List.map_cons, List.sum_append, List.sum_cons] at hsum
    have h1 : l₁ = [] := by
      cases l₁ with
      | nil => rfl
      | cons z l => have := hpos z (by simp); simp only [List.map_cons, List.sum_cons] at hsum; omega
    have h2 : l₂ = [] := by
      cases l₂ with
      | nil => rfl
      | cons z l => have := hpos z (by simp); simp only [List.map_cons, List.sum_cons] at hsum; omega
    rw [h1, h2]; rfl
  apply hsaf
  have e : safList c (H.abs E s) = safList c (H.abs x.iet D.lengths.inner) := by
    unfold safList
    have := fun φ ψ => h.saf hL H hE φ ψ
    rw [hone] at this
    simp only [List.map_cons, List.map_nil, List.sum_cons, List.sum_nil, add_zero] at this
    simp only [this]
  rw [e]
  exact h0

/-- The rotation with lengths `1` and `√2`. -/
def Examples.q2RotIET : IET Examples.Q2 := .fresh [0, 1] [1, 0]
def Examples.q2RotState : SLengths Examples.Q2 := ⟨[], [⟨1, 0⟩, ⟨0, 1⟩]⟩
theorem Examples.q2Rot_ok : Examples.hQ2.Ok Examples.q2RotIET Examples.q2RotState := Examples.sample_ok _ _ _ _ (by decide)

/-- `decompose()` returns on it. -/
example : ∃ D fuel D', Decomp.make (SLengths.ops Examples.q2Arith) Examples.q2RotIET Examples.q2RotState = .ok D ∧
    ∀ n, fuel ≤ n → D.decompose PPL.ideal (SLengths.ops Examples.q2Arith) Decomp.defaultTarget (-1) n = .ok (true, D') := by
  obtain ⟨D, h1, -⟩ := Decomp.make_spec Examples.hQ2 (ι := AddMonoidHom.id Examples.Q2) (fun _ _ h => h) Examples.q2Rot_ok
  have hsaf : Examples.q2RotIET.rawSaf (SLengths.ops Examples.q2Arith) Examples.q2RotState = .ok [2] := by decide +kernel
  rw [rawSaf_spec Examples.hQ2 Examples.q2Rot_ok] at hsaf
  obtain ⟨F, D', h2, -⟩ := C68_decompose Examples.hQ2 Examples.q2_faithful PPL.ideal_lawful Examples.q2Rot_ok
    (not_mayOverflow_rotation Examples.hQ2 PPL.ideal_lawful Examples.q2Rot_ok rfl (by rw [Except.ok.inj hsaf]; simp)) (.init h1)
  exact ⟨D, F, D', h1, h2⟩

end Verif
