import Verif.Proofs.Cylinders

/-!
# C39: commensurable lengths decompose into cylinders
-/

namespace Verif

set_option linter.unusedSectionVars false

variable {σ T ε : Type} [CommRing T] [LinearOrder T] [IsStrictOrderedRing T] {O : LengthsOps σ T} {d : ℕ} {c : T →+ (Fin d → ℚ)}

theorem CompsEffect.flag {comps comps' : List (Comp T)} {i : ℕ} {x : Comp T} {step : DStep} (h : CompsEffect comps i x step comps')
    (ha : step.result ≠ .withoutPeriodicTrajectoryAutoSimilar) (hb : step.result ≠ .withoutPeriodicTrajectoryBoshernitzan)
    (hx : x.withoutPeriodicTrajectory ≠ some true) (hall : ∀ z ∈ comps, z.withoutPeriodicTrajectory ≠ some true) :
    ∀ z ∈ comps', z.withoutPeriodicTrajectory ≠ some true := by
  intro z hz
  cases h with
  | same _ _ _ h4 h5 _ h7 h8 _ h10 =>
    rcases List.mem_or_eq_of_mem_set hz with h | h
    · exact hall z h
    · subst h
      by_cases e1 : step.result = .limitReached
      · rw [(h7 e1).2]; exact hx
      · by_cases e2 : step.result = .cylinder
        · rw [(h8 e2).2]; simp
        · exfalso
          revert ha hb h4 h5 h10 e1 e2
          cases step.result <;> simp
  | split _ _ _ _ _ _ _ _ h9 _ h11 =>
    rcases List.mem_append.mp hz with h | h
    · rcases List.mem_or_eq_of_mem_set h with h | h
      · exact hall z h
      · subst h; rw [h9]; exact hx
    · rw [List.mem_singleton] at h
      subst h; rw [h11]; simp
  | merge _ _ _ _ _ _ h7 =>
    rcases List.mem_or_eq_of_mem_set hz with h | h
    · exact hall z h
    · subst h; rw [h7]; exact hx

/-- In a decomposition of commensurable lengths, all lengths are multiples of the same length, and no component is without periodic
trajectories. -/
theorem DReach.small (H : LawfulLengths O c ε) {L : PPL} (hL : L.Lawful) {E : IET T} {s : σ} (hE : H.Ok E s) {u : T} (hu : 0 < u)
    {k : Label → ℕ} (hk : Mult u k (H.abs E s)) {D : Decomp σ T} {steps : List DStep} (h : DReach L O E s D steps) :
    Small H u k D ∧ ∀ x ∈ D.comps, x.withoutPeriodicTrajectory ≠ some true := by
  induction h with
  | init hr =>
    obtain ⟨D, h1, h2, h3, -⟩ := Decomp.make_spec H (ι := AddMonoidHom.id T) (fun _ _ h => h) hE
    rw [h1] at hr
    cases hr
    refine ⟨?_, ?_⟩
    · intro x hx a ha
      rw [h2, List.mem_singleton] at hx
      subst hx
      rw [h3]
      exact ⟨k a, le_refl _, hk a ha⟩
    · intro x hx
      rw [h2, List.mem_singleton] at hx
      subst hx
      simp
  | step fuel limit i h hr ih =>
    obtain ⟨x, hi, he, -⟩ := h.effect hL H hE hr
    have hinv := h.inv hL H (ι := AddMonoidHom.id T) (fun _ _ h => h) hE
    rcases step_small hL hinv hi hu ih.1 fuel limit with ⟨st, D'', g1, g2, g3, g4⟩ | ⟨⟨e, g⟩, -⟩
    · rw [hr] at g1
      cases g1
      exact ⟨g2, he.flag g3 g4 (ih.2 x (List.mem_of_getElem? hi)) ih.2⟩
    · rw [hr] at g; cases g

/-- The labels of components are labels of the original IET. -/
theorem DReach.labels (H : LawfulLengths O c ε) {L : PPL} (hL : L.Lawful) {E : IET T} {s : σ} (hE : H.Ok E s) {D : Decomp σ T}
    {steps : List DStep} (h : DReach L O E s D steps) {x : Comp T} (hx : x ∈ D.comps) :
    x.iet.top.Nodup ∧ x.iet.top ≠ [] ∧ ∀ a ∈ x.iet.top, a ∈ E.top := by
  have hinv := h.inv hL H (ι := AddMonoidHom.id T) (fun _ _ h => h) hE
  have hv := (hinv.good x hx).ok.valid
  refine ⟨hv.nodup, hv.ne_nil, ?_⟩
  obtain ⟨oc, h1, h2⟩ := hinv.track
  rw [← h1, List.mem_map] at hx
  obtain ⟨q, hq, rfl⟩ := hx
  exact h2.mem (q.1, (H.abs q.2.iet D.lengths.inner).map (AddMonoidHom.id T)) (List.mem_map.mpr ⟨q, hq, rfl⟩)

/-- Decomposing a component of a decomposition of commensurable lengths returns. -/
theorem decomposeComponent_returns (H : LawfulLengths O c ε) {L : PPL} (hL : L.Lawful) {E : IET T} {s : σ} (hE : H.Ok E s) {u : T} (hu : 0 < u)
    {k : Label → ℕ} (hk : Mult u k (H.abs E s)) (hbound : logBound k E.top ≤ 2 ^ 31 - 3)
    {target : Comp T → Bool} (htarget : ∀ x : Comp T, x.cylinder = some true → target x = true) :
    ∀ (m n i : ℕ) {D : Decomp σ T} {steps : List DStep} {x : Comp T}, DReach L O E s D steps → D.comps[i]? = some x →
    x.iet.top.length ≤ m → m + 31 ≤ n → ∃ D', D.decomposeComponent L O target (-1) n i = .ok (true, D') := by
  suffices hsuff : ∀ (m n i : ℕ) {D : Decomp σ T} {steps : List DStep} {x : Comp T}, DReach L O E s D steps → D.comps[i]? = some x →
      x.iet.top.length ≤ m → m + 31 ≤ n → ∃ b D', D.decomposeComponent L O target (-1) n i = .ok (b, D') by
    intro m n i D steps x h hi hm hn
    obtain ⟨b, D', hr⟩ := hsuff m n i h hi hm hn
    obtain ⟨_, _, _, _, _, _, h6⟩ := decomposeComponent_spec H hL hE n i h hr
    cases b with
    | true => exact ⟨D', hr⟩
    | false => exact absurd rfl (h6 rfl).1
  intro m
  induction m with
  | zero =>
    intro n i D steps x h hi hm _
    have := (h.labels H hL hE (List.mem_of_getElem? hi)).2.1
    exact absurd (List.eq_nil_of_length_eq_zero (by omega)) this
  | succ m ih =>
    intro n i D steps x h hi hm hn
    obtain ⟨n, rfl⟩ : ∃ n', n = n' + 1 := ⟨n - 1, by omega⟩
    have hx := List.mem_of_getElem? hi
    obtain ⟨l1, l2, l3⟩ := h.labels H hL hE hx
    have hinv := h.inv hL H (ι := AddMonoidHom.id T) (fun _ _ h => h) hE
    unfold Decomp.decomposeComponent
    simp only [Decomp.comp_ok hi, bind, Except.bind, pure, Except.pure]
    by_cases ht : target x = true
    · rw [if_pos ht]; exact ⟨_, _, rfl⟩
    rw [if_neg ht]
    rcases step_small hL hinv hi hu (h.small H hL hE hu hk).1 n (-1) with ⟨step, D₁, g1, g2, g3, g4⟩ | ⟨-, -, g⟩
    swap
    · exact absurd ⟨le_trans (logBound_subset l1 l3) hbound, by omega⟩ g
    rw [g1]
    simp only
    obtain ⟨x₀, hi', he, hlim, -⟩ := h.effect hL H hE g1
    rw [hi] at hi'
    cases hi'
    have h1 : DReach L O E s D₁ (steps ++ [step]) := .step n (-1) i h g1
    have hil := (List.getElem?_eq_some_iff.mp hi).1
    rw [if_neg (hlim rfl)]
    obtain ⟨comps₁, lengths₁⟩ := D₁
    simp only at he
    cases he with
    | @same x' a1 a2 a3 a4 a5 a6 a7 a8 a9 a10 =>
      rw [a2]
      have e : step.result = .cylinder := by
        have := hlim rfl
        revert this g3 g4 a4 a5 a10
        cases step.result <;> simp
      have hx' : (⟨D.comps.set i x', lengths₁⟩ : Decomp σ T).comps[i]? = some x' := by
        simp only; rw [List.getElem?_set_self hil]
      obtain ⟨n, rfl⟩ : ∃ n', n = n' + 1 := ⟨n - 1, by omega⟩
      refine ⟨true, ⟨D.comps.set i x', lengths₁⟩, ?_⟩
      simp only
      rw [Decomp.decomposeComponent]
      simp only [Decomp.comp_ok hx', bind, Except.bind, pure, Except.pure]
      rw [if_pos (htarget x' (a8 e).1)]
    | @split x' y conn a1 a2 a3 a4 a5 a6 =>
      rw [a3]
      have hlen := a4.length_eq
      rw [List.length_append] at hlen
      have p1 := List.length_pos_of_ne_nil a5
      have p2 := List.length_pos_of_ne_nil a6
      have hy : (⟨D.comps.set i x' ++ [y], lengths₁⟩ : Decomp σ T).comps[D.comps.length]? = some y := by
        simp only
        rw [List.getElem?_append_right (by simp)]
        simp
      have hx' : (⟨D.comps.set i x' ++ [y], lengths₁⟩ : Decomp σ T).comps[i]? = some x' := by
        simp only
        rw [List.getElem?_append_left (by simpa using hil), List.getElem?_set_self hil]
      obtain ⟨b₂, D₂, r2⟩ := ih n D.comps.length h1 hy (by omega) (by omega)
      obtain ⟨steps₂, q1, -, -, q4, -⟩ := decomposeComponent_spec H hL hE n _ h1 r2
      have hx₂ : D₂.comps[i]? = some x' := by
        rw [q4 i (by simp; omega) (by omega), hx']
      obtain ⟨b₃, D₃, r3⟩ := ih n i q1 hx₂ (by omega) (by omega)
      simp only [r2, r3]
      exact ⟨_, _, rfl⟩
    | @merge x' conn a1 a2 a3 a4 a5 =>
      rw [a3]
      have hlen := a4.length_eq
      rw [List.length_cons] at hlen
      have hx' : (⟨D.comps.set i x', lengths₁⟩ : Decomp σ T).comps[i]? = some x' := by
        simp only; rw [List.getElem?_set_self hil]
      exact ih n i h1 hx' (by omega) (by omega)

theorem decomposeAll_returns (H : LawfulLengths O c ε) {L : PPL} (hL : L.Lawful) {E : IET T} {s : σ} (hE : H.Ok E s) {u : T} (hu : 0 < u)
    {k : Label → ℕ} (hk : Mult u k (H.abs E s)) (hbound : logBound k E.top ≤ 2 ^ 31 - 3)
    {target : Comp T → Bool} (htarget : ∀ x : Comp T, x.cylinder = some true → target x = true) {n : ℕ} (hn : E.top.length + 31 ≤ n) :
    ∀ (is : List ℕ) {D : Decomp σ T} {steps : List DStep}, DReach L O E s D steps → (∀ i ∈ is, i < D.comps.length) →
    ∃ D', D.decomposeAll L O target (-1) n is = .ok (true, D')
  | [], D, _, _, _ => ⟨D, rfl⟩
  | i :: is, D, steps, h, hi => by
    have hil := hi i (by simp)
    obtain ⟨l1, -, l3⟩ := h.labels H hL hE (List.getElem_mem hil)
    obtain ⟨D₁, h1⟩ := decomposeComponent_returns H hL hE hu hk hbound htarget E.top.length n i h (List.getElem?_eq_getElem hil)
      (List.subperm_of_subset l1 l3).length_le hn
    obtain ⟨steps₁, q1, -, q3, -⟩ := decomposeComponent_spec H hL hE n i h h1
    obtain ⟨D₂, h2⟩ := decomposeAll_returns H hL hE hu hk hbound htarget hn is q1
      (fun j hj => lt_of_lt_of_le (hi j (List.mem_cons_of_mem _ hj)) q3)
    refine ⟨D₂, ?_⟩
    unfold Decomp.decomposeAll
    simp only [h1, bind, Except.bind, if_true]
    exact h2

/-- **C39** If the lengths of the `n` intervals of an IET are multiples `k a * u` of one positive length `u`, and if
`n * (1 + ∑ ⌊log₂ (k a)⌋)` does not exceed `2 ^ 31 - 3`, then from every state of a decomposition of it, `decompose()` returns true
after recursing to a depth of at most `n + 31`, and all components are cylinders then.  (For much larger lengths, the limit on the number of rounds of
induction, an `int`, could overflow.) -/
theorem C39_decompose (H : LawfulLengths O c ε) {L : PPL} (hL : L.Lawful) {E : IET T} {s : σ} (hE : H.Ok E s) {u : T} (hu : 0 < u)
    {k : Label → ℕ} (hk : ∀ a ∈ E.top, O.get a s = .ok ((k a : T) * u))
    (hbound : E.top.length * (1 + (E.top.map (fun a => Nat.log 2 (k a))).sum) ≤ 2 ^ 31 - 3)
    {D : Decomp σ T} {steps : List DStep} (h : DReach L O E s D steps) {fuel : ℕ} (hfuel : E.top.length + 31 ≤ fuel) :
    ∃ D', D.decompose L O Decomp.defaultTarget (-1) fuel = .ok (true, D') ∧
      ∀ x ∈ D'.comps, x.cylinder = some true ∧ x.withoutPeriodicTrajectory = some false ∧ x.iet.top.length = 1 := by
  have hk : Mult u k (H.abs E s) := by
    intro a ha
    have h1 := hk a ha
    rw [H.get_spec _ _ hE.inv (hE.dom a ha)] at h1
    exact Except.ok.inj h1
  obtain ⟨D', h1⟩ := decomposeAll_returns H hL hE hu hk hbound (target := Decomp.defaultTarget)
    (fun x hx => by simp [Decomp.defaultTarget, hx]) hfuel (List.range D.comps.length) h (fun i hi => List.mem_range.mp hi)
  refine ⟨D', h1, ?_⟩
  obtain ⟨steps', h2, -, -⟩ := C38_target H hL hE h h1
  intro x hx
  rcases C38_default H hL hE h h1 x hx with ⟨h3, h4⟩ | ⟨-, h3⟩
  · have hinv := h2.inv hL H (ι := AddMonoidHom.id T) (fun _ _ h => h) hE
    exact ⟨h3, h4, (hinv.flags x hx).cylinder h3⟩
  · exact absurd h3 ((h2.small H hL hE hu hk).2 x hx)

/-- **C39** In a decomposition of commensurable lengths no component is ever claimed to be without periodic trajectories, whatever the
targets and limits. -/
theorem C39_never_without_periodic (H : LawfulLengths O c ε) {L : PPL} (hL : L.Lawful) {E : IET T} {s : σ} (hE : H.Ok E s) {u : T} (hu : 0 < u)
    {k : Label → ℕ} (hk : ∀ a ∈ E.top, O.get a s = .ok ((k a : T) * u)) {D : Decomp σ T} {steps : List DStep} (h : DReach L O E s D steps) :
    ∀ x ∈ D.comps, x.withoutPeriodicTrajectory ≠ some true := by
  have hk : Mult u k (H.abs E s) := by
    intro a ha
    have h1 := hk a ha
    rw [H.get_spec _ _ hE.inv (hE.dom a ha)] at h1
    exact Except.ok.inj h1
  exact (h.small H hL hE hu hk).2

/-- The example with integer lengths 50, 5, 3, 7. -/
example : ∃ D D', Decomp.make (SLengths.ops intArith) Examples.intIET Examples.intState = .ok D ∧
    D.decompose PPL.ideal (SLengths.ops intArith) Decomp.defaultTarget (-1) 35 = .ok (true, D') ∧
    ∀ x ∈ D'.comps, x.cylinder = some true ∧ x.withoutPeriodicTrajectory = some false ∧ x.iet.top.length = 1 := by
  obtain ⟨D, h1, -⟩ := Decomp.make_spec Examples.hInt (ι := AddMonoidHom.id ℤ) (fun _ _ h => h) Examples.int_ok
  obtain ⟨D', h2, h3⟩ := C39_decompose Examples.hInt PPL.ideal_lawful Examples.int_ok (u := 1) (by norm_num) (k := fun a => [50, 5, 3, 7].getD a 0)
    (by decide) (by decide) (.init h1) (fuel := 35) (by decide)
  exact ⟨D, D', h1, h2, h3⟩

end Verif
