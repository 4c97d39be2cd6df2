import Verif.Proofs.Unique
import Verif.Props.Found

/-!
# C74: a complete decomposition exists and is unique

A decomposition is complete when no component has a saddle connection anymore.
-/

namespace Verif

set_option linter.unusedSectionVars false

variable {σ T ε : Type} [CommRing T] [LinearOrder T] [IsStrictOrderedRing T] {O : LengthsOps σ T} {d : ℕ} {c : T →+ (Fin d → ℚ)}

/-- No component has a saddle connection. -/
def Decomp.Complete (H : LawfulLengths O c ε) (D : Decomp σ T) : Prop := ∀ x ∈ D.comps, ¬ (H.abs x.iet D.lengths.inner).HasConnection

/-- How many separating connections have been reported. -/
def separatingCount (steps : List DStep) : ℕ := (steps.filter (fun s => s.result = .separatingConnection)).length

/-- How many non-separating connections have been reported. -/
def nonSeparatingCount (steps : List DStep) : ℕ := (steps.filter (fun s => s.result = .nonSeparatingConnection)).length

/-- How many intervals there are in all components. -/
def Decomp.intervals (D : Decomp σ T) : ℕ := (D.comps.map (fun x => x.iet.top.length)).sum

theorem start_point {len : Label → T} {l : List Label} (hn : l.Nodup) {t : Label} (ht : t ∈ l) (h : 0 < off len l t) :
    ∃ t' ∈ l.reverse.tail, off len l t' + len t' = off len l t := by
  obtain ⟨l₁, l₂, rfl⟩ := List.append_of_mem ht
  rcases List.eq_nil_or_concat l₁ with rfl | ⟨l₁, t', rfl⟩
  · simp at h
  · have e : l₁.concat t' ++ t :: l₂ = l₁ ++ t' :: t :: l₂ := by simp
    rw [e] at hn ⊢
    refine ⟨t', ?_, (off_next len hn).symm⟩
    simp only [List.reverse_append, List.reverse_cons, List.append_assoc]
    rw [List.tail_append]
    split
    · simp
    · simp

/-- Connections are orbits between end points inside of the interval. -/
theorem AIET.hasConnection_iff {A : AIET T} (hA : A.Valid) : A.HasConnection ↔ ∃ n e d, Joined A n e d := by
  refine ⟨fun h => h.joined hA, ?_⟩
  rintro ⟨n, e, d, ⟨b, hb, rfl⟩, ⟨t, ht, rfl⟩, h1, h2, h3⟩
  obtain ⟨b', g1, g2⟩ := start_point hA.nodup_bottom hb h1
  obtain ⟨t', g3, g4⟩ := start_point hA.nodup ht h2
  exact ⟨t', g3, b', g1, n, by unfold AIET.rightBottom AIET.rightTop; rw [g2, g4]; exact h3⟩

theorem AIET.free_iff {A : AIET T} (hA : A.Valid) : A.Free ↔ ¬ A.HasConnection := by
  rw [AIET.hasConnection_iff hA]
  unfold AIET.Free
  push Not
  rfl

theorem DReach.counts (H : LawfulLengths O c ε) {L : PPL} (hL : L.Lawful) {E : IET T} {s : σ} (hE : H.Ok E s)
    {D : Decomp σ T} {steps : List DStep} (h : DReach L O E s D steps) :
    D.comps.length = separatingCount steps + 1 ∧ D.intervals + nonSeparatingCount steps = E.top.length := by
  induction h with
  | init h =>
    obtain ⟨D', h1, h2, -⟩ := Decomp.make_spec H (ι := AddMonoidHom.id T) (fun _ _ h => h) hE
    rw [h] at h1
    cases h1
    simp [Decomp.intervals, separatingCount, nonSeparatingCount, h2, IET.fresh]
  | @step D D' steps step fuel limit i h hr ih =>
    obtain ⟨x, hi, heff, -⟩ := h.effect hL H hE hr
    unfold Decomp.intervals separatingCount nonSeparatingCount at ih ⊢
    rw [List.filter_append, List.filter_append, List.length_append, List.length_append]
    generalize D'.comps = cs at heff
    cases heff with
    | @same x' _ _ _ e1 e2 a6 =>
      have h1 := sum_map_set (f := fun x : Comp T => x.iet.top.length) (x' := x') hi
      have h2 := a6.length_eq
      simp only [List.length_set, List.filter_cons, e1, e2, decide_false, List.filter_nil, List.length_nil]
      simp only [Bool.false_eq_true, if_false, List.length_nil]
      omega
    | @split x' y _ e _ _ a4 =>
      have h1 := sum_map_set (f := fun x : Comp T => x.iet.top.length) (x' := x') hi
      have h2 := a4.length_eq
      rw [List.length_append] at h2
      simp only [List.length_set, List.length_append, List.map_append, List.sum_append, List.filter_cons, e, List.filter_nil, List.length_cons, List.length_nil, List.map_cons, List.map_nil,
        List.sum_cons, List.sum_nil, decide_true, if_true, reduceCtorEq, decide_false, Bool.false_eq_true, if_false]
      omega
    | @merge x' _ e _ _ a4 =>
      have h1 := sum_map_set (f := fun x : Comp T => x.iet.top.length) (x' := x') hi
      have h2 := a4.length_eq
      rw [List.length_cons] at h2
      simp only [List.length_set, List.filter_cons, e, List.filter_nil, List.length_cons, List.length_nil, decide_true, if_true, reduceCtorEq, decide_false, Bool.false_eq_true,
        if_false]
      omega

theorem DReach.weight_eq (H : LawfulLengths O c ε) {L : PPL} (hL : L.Lawful) {E : IET T} {s : σ} (hE : H.Ok E s)
    {D : Decomp σ T} {steps : List DStep} (h : DReach L O E s D steps) : D.weight + D.comps.length = 2 * D.intervals := by
  have hpos : ∀ x ∈ D.comps, 0 < x.iet.top.length := fun x hx => List.length_pos_of_ne_nil (h.labels H hL hE hx).2.1
  unfold Decomp.weight Decomp.intervals
  generalize D.comps = l at hpos
  induction l with
  | nil => rfl
  | cons x l ih =>
    have h1 := ih (fun y hy => hpos y (List.mem_cons_of_mem _ hy))
    have h2 := hpos x List.mem_cons_self
    simp only [List.map_cons, List.sum_cons, List.length_cons]
    omega

/-- When a decomposition is not complete then one can find another connection. -/
theorem exists_smaller [Archimedean T] (H : LawfulLengths O c ε) {L : PPL} (hL : L.Lawful) {E : IET T} {s : σ} (hE : H.Ok E s)
    {D : Decomp σ T} {steps : List DStep} (h : DReach L O E s D steps) (hD : ¬ D.Complete H) : ∃ D', Continues L O D D' ∧ D'.weight < D.weight := by
  unfold Decomp.Complete at hD
  push Not at hD
  obtain ⟨x, hx, hcon⟩ := hD
  have hlen : x.iet.top.length ≠ 1 := by
    intro e
    obtain ⟨a, ha⟩ := List.length_eq_one_iff.mp e
    obtain ⟨t, ht, -⟩ := hcon
    simp only [LawfulLengths.abs, ha] at ht
    simp at ht
  obtain ⟨i, hi⟩ := List.getElem?_of_mem hx
  have hv := h.valid hL H hE x hx
  obtain ⟨N, hN⟩ := exists_endsBy hv (.inr (hcon.joined hv))
  exact exists_progress H hL hE N _ h hi hlen hN (le_refl _)

/-- **C74** From every state of a decomposition one can get, by finitely many further steps with limits, to a complete decomposition: no component has a saddle
connection anymore. -/
theorem C74_attainable [Archimedean T] (H : LawfulLengths O c ε) {L : PPL} (hL : L.Lawful) {E : IET T} {s : σ} (hE : H.Ok E s)
    {D : Decomp σ T} {steps : List DStep} (h : DReach L O E s D steps) : ∃ D', Continues L O D D' ∧ D'.Complete H := by
  have key : ∀ (n : ℕ) {D : Decomp σ T} {steps : List DStep}, D.weight ≤ n → DReach L O E s D steps → ∃ D', Continues L O D D' ∧ D'.Complete H := by
    intro n
    induction n with
    | zero =>
      intro D steps hw h
      by_cases hD : D.Complete H
      · exact ⟨D, .refl, hD⟩
      obtain ⟨D', h1, h2⟩ := exists_smaller H hL hE h hD
      omega
    | succ n ih =>
      intro D steps hw h
      by_cases hD : D.Complete H
      · exact ⟨D, .refl, hD⟩
      obtain ⟨D', h1, h2⟩ := exists_smaller H hL hE h hD
      obtain ⟨steps', h'⟩ := h1.reach h
      obtain ⟨D'', h3, h4⟩ := ih (by omega) h'
      exact ⟨D'', h1.trans h3, h4⟩
  exact key _ (le_refl _) h

theorem Decomp.Complete.allFree {H : LawfulLengths O c ε} {D : Decomp σ T} (h : D.Complete H) (hv : ∀ x ∈ D.comps, (H.abs x.iet D.lengths.inner).Valid) :
    AllFree (D.parts H) := by
  intro A hA
  unfold Decomp.parts at hA
  rw [Multiset.mem_coe, List.mem_map] at hA
  obtain ⟨x, hx, rfl⟩ := hA
  exact ⟨(hv x hx).norm, ((AIET.free_iff (hv x hx)).mpr (h x hx)).agree (hv x hx) (AIET.agree_norm _)⟩

/-- **C74** Any two complete decompositions of an IET are the same, up to the order of the components and up to the amount of induction that has been performed on each
of them: there is a correspondence between the components, corresponding components have the same labels and the same SAF invariant, and they become the same after
some more steps of Rauzy induction. -/
theorem C74_unique (H : LawfulLengths O c ε) {L : PPL} (hL : L.Lawful) {E : IET T} {s : σ} (hE : H.Ok E s) {D₁ D₂ : Decomp σ T}
    {steps₁ steps₂ : List DStep} (h₁ : DReach L O E s D₁ steps₁) (h₂ : DReach L O E s D₂ steps₂) (hD₁ : D₁.Complete H) (hD₂ : D₂.Complete H) :
    ∃ comps, comps.Perm D₂.comps ∧ List.Forall₂ (fun x y => x.iet.top.Perm y.iet.top ∧
      safList c (H.abs x.iet D₁.lengths.inner) = safList c (H.abs y.iet D₂.lengths.inner) ∧
      ∃ B B', Steps (H.abs x.iet D₁.lengths.inner) B ∧ Steps (H.abs y.iet D₂.lengths.inner) B' ∧ B.Agree B') D₁.comps comps := by
  have hv₁ := h₁.valid hL H hE
  have hv₂ := h₂.valid hL H hE
  have hk := (h₁.rws hL H hE).kin (h₂.rws hL H hE) (hD₁.allFree hv₁) (hD₂.allFree hv₂)
  unfold Decomp.parts at hk
  rw [← Multiset.map_coe, ← Multiset.map_coe, Multiset.rel_map] at hk
  obtain ⟨k, h3, h4⟩ := exists_forall₂ hk
  refine ⟨k, h3, ?_⟩
  have : ∀ {l : List (Comp T)} {k : List (Comp T)}, (∀ x ∈ l, x ∈ D₁.comps) → (∀ y ∈ k, y ∈ D₂.comps) →
      List.Forall₂ (fun x y : Comp T => Kin (H.abs x.iet D₁.lengths.inner).norm (H.abs y.iet D₂.lengths.inner).norm) l k →
      List.Forall₂ (fun x y => x.iet.top.Perm y.iet.top ∧
      safList c (H.abs x.iet D₁.lengths.inner) = safList c (H.abs y.iet D₂.lengths.inner) ∧
      ∃ B B', Steps (H.abs x.iet D₁.lengths.inner) B ∧ Steps (H.abs y.iet D₂.lengths.inner) B' ∧ B.Agree B') l k := by
    intro l k hl hk h
    induction h with
    | nil => exact .nil
    | @cons x y l k hxy _ ih =>
      refine .cons ?_ (ih (fun x hx => hl x (List.mem_cons_of_mem _ hx)) (fun x hx => hk x (List.mem_cons_of_mem _ hx)))
      have hvx := hv₁ x (hl x List.mem_cons_self)
      have hvy := hv₂ y (hk y List.mem_cons_self)
      refine ⟨hxy.perm, ?_, ?_⟩
      · unfold safList
        congr 1
        refine List.map_congr_left (fun p _ => ?_)
        rw [(AIET.agree_norm _).saf hvx, (AIET.agree_norm (H.abs y.iet D₂.lengths.inner)).saf hvy]
        exact hxy.saf hvx.norm hvy.norm _ _
      · obtain ⟨B, B', g1, g2, g3⟩ := hxy
        obtain ⟨C, g4, g5⟩ := Steps.agree g1 hvx.norm (AIET.agree_norm _).symm
        obtain ⟨C', g6, g7⟩ := Steps.agree g2 hvy.norm (AIET.agree_norm _).symm
        exact ⟨C, C', g4, g6, g5.symm.trans (g3.trans g7)⟩
  exact this (fun _ h => h) (fun y hy => h3.mem_iff.mp hy) h4

theorem Decomp.Complete.settled {H : LawfulLengths O c ε} {D : Decomp σ T} (h : D.Complete H) (hv : ∀ x ∈ D.comps, (H.abs x.iet D.lengths.inner).Valid) :
    D.Settled H := by
  intro x hx
  by_cases hlen : x.iet.top.length = 1
  · exact .inl hlen
  refine .inr (fun ⟨y, hy⟩ => ?_)
  have hvx := hv x hx
  have hf := (AIET.free_iff hvx).mpr (h x hx)
  obtain ⟨t, b, ht, hb⟩ := hvx.heads
  by_cases hne : t = b
  · subst hne
    -- The left intervals could be split off.
    have h1 : 1 < (H.abs x.iet D.lengths.inner).top.length := by
      have := List.length_pos_of_ne_nil hvx.ne_nil
      simp only [LawfulLengths.abs] at this ⊢
      omega
    obtain ⟨e, he⟩ := IsCut.joined (k := 1) hvx ⟨by omega, h1, rfl, rfl, by
      simp only
      cases htop : (H.abs x.iet D.lengths.inner).top with
      | nil => rw [htop] at ht; cases ht
      | cons a l =>
        cases hbot : (H.abs x.iet D.lengths.inner).bottom with
        | nil => rw [hbot] at hb; cases hb
        | cons a' l' =>
          rw [htop] at ht; rw [hbot] at hb
          cases ht; cases hb
          simp, by omega⟩
    exact hf _ _ _ he
  · exact no_periodic_of_not_joined hvx ht hb hne hf y hy

/-- **C74** All complete decompositions have the same cylinders, with the same lengths, the same number of components, and they have been found with the same numbers of
separating and non-separating connections. -/
theorem C74_counts (H : LawfulLengths O c ε) {L : PPL} (hL : L.Lawful) {E : IET T} {s : σ} (hE : H.Ok E s) {D₁ D₂ : Decomp σ T}
    {steps₁ steps₂ : List DStep} (h₁ : DReach L O E s D₁ steps₁) (h₂ : DReach L O E s D₂ steps₂) (hD₁ : D₁.Complete H) (hD₂ : D₂.Complete H) :
    (D₁.cylinders H).Perm (D₂.cylinders H) ∧ D₁.comps.length = D₂.comps.length ∧ separatingCount steps₁ = separatingCount steps₂ ∧
      nonSeparatingCount steps₁ = nonSeparatingCount steps₂ := by
  obtain ⟨k, h3, h4⟩ := C74_unique H hL hE h₁ h₂ hD₁ hD₂
  have h5 : D₁.comps.length = D₂.comps.length := by rw [h4.length_eq, h3.length_eq]
  have h6 : D₁.intervals = D₂.intervals := by
    unfold Decomp.intervals
    rw [← (h3.map (fun x : Comp T => x.iet.top.length)).sum_eq]
    generalize D₁.comps = l at h4
    clear h3 h5
    induction h4 with
    | nil => rfl
    | cons h _ ih => rw [List.map_cons, List.map_cons, List.sum_cons, List.sum_cons, ih, h.1.length_eq]
  have c1 := h₁.counts H hL hE
  have c2 := h₂.counts H hL hE
  exact ⟨C72_same H hL hE h₁ h₂ (hD₁.settled (h₁.valid hL H hE)) (hD₂.settled (h₂.valid hL H hE)), h5, by omega, by omega⟩

theorem Continues.mono {L : PPL} (H : LawfulLengths O c ε) (hL : L.Lawful) {E : IET T} {s : σ} (hE : H.Ok E s) {D D' : Decomp σ T} {steps : List DStep}
    (h : DReach L O E s D steps) (hc : Continues L O D D') : D.comps.length ≤ D'.comps.length ∧ D'.intervals ≤ D.intervals := by
  induction hc with
  | refl => exact ⟨le_refl _, le_refl _⟩
  | tail hc' h' ih =>
    obtain ⟨fuel, limit, i, step, hr⟩ := h'
    obtain ⟨steps', hreach⟩ := Continues.reach h hc'
    obtain ⟨c1, c2⟩ := hreach.counts H hL hE
    obtain ⟨c3, c4⟩ := (DReach.step fuel limit i hreach hr).counts H hL hE
    unfold separatingCount at c1 c3
    unfold nonSeparatingCount at c2 c4
    rw [List.filter_append, List.length_append] at c3 c4
    omega

/-- **C74** Every IET has a number of separating and a number of non-separating connections such that no decomposition reports more of them, and a
decomposition is complete if and only if it has reported that many. -/
theorem C74_complete_iff [Archimedean T] (H : LawfulLengths O c ε) {L : PPL} (hL : L.Lawful) {E : IET T} {s : σ} (hE : H.Ok E s) :
    ∃ m n : ℕ, ∀ {D : Decomp σ T} {steps : List DStep}, DReach L O E s D steps → separatingCount steps ≤ m ∧ nonSeparatingCount steps ≤ n ∧
      (D.Complete H ↔ separatingCount steps = m ∧ nonSeparatingCount steps = n) := by
  obtain ⟨D₀, h0, -⟩ := Decomp.make_spec H (ι := AddMonoidHom.id T) (fun _ _ h => h) hE
  obtain ⟨D₁, h1, h2⟩ := C74_attainable H hL hE (.init h0)
  obtain ⟨steps₁, h3⟩ := h1.reach (.init h0)
  refine ⟨separatingCount steps₁, nonSeparatingCount steps₁, fun {D steps} h => ?_⟩
  have bound : ∀ {D : Decomp σ T} {steps : List DStep}, DReach L O E s D steps →
      separatingCount steps ≤ separatingCount steps₁ ∧ nonSeparatingCount steps ≤ nonSeparatingCount steps₁ := by
    intro D steps h
    obtain ⟨D', h4, h5⟩ := C74_attainable H hL hE h
    obtain ⟨steps', h6⟩ := h4.reach h
    obtain ⟨-, -, e1, e2⟩ := C74_counts H hL hE h6 h3 h5 h2
    obtain ⟨c1, c2⟩ := h.counts H hL hE
    obtain ⟨c3, c4⟩ := h6.counts H hL hE
    obtain ⟨m1, m2⟩ := h4.mono H hL hE h
    omega
  refine ⟨(bound h).1, (bound h).2, fun hD => ?_, fun ⟨e3, e4⟩ => ?_⟩
  · obtain ⟨-, -, e3, e4⟩ := C74_counts H hL hE h h3 hD h2
    exact ⟨e3, e4⟩
  · by_contra hD
    obtain ⟨D', h4, h5⟩ := exists_smaller H hL hE h hD
    obtain ⟨steps', h6⟩ := h4.reach h
    have b := bound h6
    obtain ⟨c1, c2⟩ := h.counts H hL hE
    obtain ⟨c3, c4⟩ := h6.counts H hL hE
    have w1 := h.weight_eq H hL hE
    have w2 := h6.weight_eq H hL hE
    omega

/-- **C74** Once a decomposition is complete, no further connections are reported and it remains complete. -/
theorem C74_finished [Archimedean T] (H : LawfulLengths O c ε) {L : PPL} (hL : L.Lawful) {E : IET T} {s : σ} (hE : H.Ok E s)
    {D D' : Decomp σ T} {steps : List DStep} (h : DReach L O E s D steps) (hD : D.Complete H) {fuel : ℕ} {limit : ℤ} {i : ℕ} {step : DStep}
    (hr : D.decompositionStep L O fuel limit i = .ok (step, D')) :
    step.result ≠ .separatingConnection ∧ step.result ≠ .nonSeparatingConnection ∧ D'.Complete H := by
  obtain ⟨m, n, hmn⟩ := C74_complete_iff H hL hE
  obtain ⟨-, -, h1⟩ := hmn h
  obtain ⟨e1, e2⟩ := h1.mp hD
  obtain ⟨b1, b2, h2⟩ := hmn (.step fuel limit i h hr)
  have s1 : separatingCount (steps ++ [step]) = separatingCount steps + if step.result = .separatingConnection then 1 else 0 := by
    unfold separatingCount
    rw [List.filter_append, List.length_append, List.filter_cons]
    split <;> simp_all
  have s2 : nonSeparatingCount (steps ++ [step]) = nonSeparatingCount steps + if step.result = .nonSeparatingConnection then 1 else 0 := by
    unfold nonSeparatingCount
    rw [List.filter_append, List.length_append, List.filter_cons]
    split <;> simp_all
  have n1 : step.result ≠ .separatingConnection := by
    intro e
    rw [if_pos e] at s1
    omega
  have n2 : step.result ≠ .nonSeparatingConnection := by
    intro e
    rw [if_pos e] at s2
    omega
  rw [if_neg n1] at s1
  rw [if_neg n2] at s2
  exact ⟨n1, n2, h2.mpr ⟨by omega, by omega⟩⟩

/-! ### Examples -/

namespace Examples

/-- Integer lengths again, all components are handled in another order. -/
theorem two_run'' : cylindersAfter [(2, 0), (1, 0), (-1, 1), (3, 1), (-1, 0), (-1, 2)] =
    some ([.separatingConnection, .nonSeparatingConnection, .nonSeparatingConnection, .separatingConnection, .cylinder, .cylinder],
      [[1], [3], [4]], [(1, 2), (3, 3), (4, 3)]) := rfl

end Examples

open Examples in
/-- Both decompositions are complete, so they are the same. -/
example : ∃ D₁ D₂ steps₁ steps₂, DReach PPL.ideal (SLengths.ops intArith) twoIET twoState D₁ steps₁ ∧
    DReach PPL.ideal (SLengths.ops intArith) twoIET twoState D₂ steps₂ ∧ D₁.Complete hInt ∧ D₂.Complete hInt ∧ separatingCount steps₁ = 2 ∧
    separatingCount steps₂ = 2 ∧ nonSeparatingCount steps₂ = 2 := by
  have key : ∀ {D : Decomp (SLengths ℤ) ℤ}, D.comps.map (fun x : Comp ℤ => x.iet.top) = [[1], [3], [4]] → D.Complete hInt := by
    intro D h3 x hx
    have := List.mem_map_of_mem (f := fun x : Comp ℤ => x.iet.top) hx
    rw [h3] at this
    rintro ⟨t, ht, -⟩
    simp only [LawfulLengths.abs] at ht
    simp only [List.mem_cons, List.not_mem_nil, or_false] at this
    rcases this with e | e | e <;> rw [e] at ht <;> simp at ht
  obtain ⟨st₁, D₁, h1, h2, h3, h4⟩ := of_cylindersAfter two_run
  obtain ⟨st₂, D₂, g1, g2, g3, g4⟩ := of_cylindersAfter two_run''
  obtain ⟨-, -, e1, e2⟩ := C74_counts hInt PPL.ideal_lawful two_ok h1 g1 (key h3) (key g3)
  have c := g1.counts hInt PPL.ideal_lawful two_ok
  have c1 := congrArg List.length g3
  have c2 : D₂.intervals = 3 := by
    have := congrArg (fun l => (l.map List.length).sum) g3
    simpa [Decomp.intervals, Function.comp_def] using this
  rw [List.length_map] at c1
  simp only [List.length_cons, List.length_nil] at c1
  have c3 : twoIET.top.length = 5 := rfl
  exact ⟨D₁, D₂, st₁, st₂, h1, g1, key h3, key g3, by omega, by omega, by omega⟩

open Examples in
/-- With lengths in a cubic field. -/
example : ∃ m n : ℕ, ∀ {D : Decomp (SLengths Cubic) Cubic} {steps : List DStep}, DReach PPL.ideal (SLengths.ops cubicArith) connIET connState D steps →
    separatingCount steps ≤ m ∧ nonSeparatingCount steps ≤ n ∧ (D.Complete hCubic ↔ separatingCount steps = m ∧ nonSeparatingCount steps = n) :=
  C74_complete_iff hCubic PPL.ideal_lawful conn_ok

end Verif
