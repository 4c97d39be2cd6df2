import Verif.Proofs.Found
import Verif.Props.Confluence
import Verif.Props.RankTwo
import Verif.ExamplesCubic

/-!
# C73: every saddle connection and every cylinder is found

Nothing is assumed about the rank of the lengths, only that they are Archimedean, i.e., that they are real numbers.
-/

namespace Verif

set_option linter.unusedSectionVars false

variable {σ T ε : Type} [CommRing T] [LinearOrder T] [IsStrictOrderedRing T] {O : LengthsOps σ T} {d : ℕ} {c : T →+ (Fin d → ℚ)}
variable {P : Type} [CommRing P] [LinearOrder P] [IsStrictOrderedRing P]

/-- The orbit of an end point between two bottom intervals hits an end point between two top intervals.  (This is what is excluded in
`C21_keane`.) -/
def AIET.HasConnection (A : AIET T) : Prop :=
  ∃ t ∈ A.top.reverse.tail, ∃ b ∈ A.bottom.reverse.tail, ∃ n, Iter A.Maps n (A.rightBottom b) (A.rightTop t)

theorem end_point {len : Label → T} {l : List Label} (hn : l.Nodup) (hpos : ∀ a ∈ l, 0 < len a) {t : Label} (h : t ∈ l.reverse.tail) :
    ∃ t' ∈ l, off len l t + len t = off len l t' ∧ 0 < off len l t' := by
  obtain ⟨l₁, l₂, t', rfl⟩ := exists_next h
  have e := off_next len hn
  refine ⟨t', by simp, e.symm, ?_⟩
  rw [e]
  have h1 := off_nonneg hpos t
  have h2 := hpos t (by simp)
  linarith

theorem AIET.HasConnection.joined {A : AIET T} (hA : A.Valid) (h : A.HasConnection) : ∃ n e d, Joined A n e d := by
  obtain ⟨t, ht, b, hb, n, hn⟩ := h
  obtain ⟨t', h1, h2, h3⟩ := end_point (len := A.len) hA.nodup hA.pos ht
  obtain ⟨b', g1, g2, g3⟩ := end_point (len := A.len) (hA.perm.nodup_iff.mpr hA.nodup) (fun a ha => hA.pos a (hA.perm.mem_iff.mp ha)) hb
  exact ⟨n, _, _, ⟨b', g1, g2⟩, ⟨t', h1, h2⟩, by rw [g2]; exact g3, by rw [h2]; exact h3, hn⟩

theorem exists_endsBy_of [Archimedean T] {ι : T →+ P} (hι : StrictMono ι) {A : AIET T} (hA : A.Valid)
    (h : A.HasConnection ∨ ∃ x, Periodic (A.map ι).Maps x) : ∃ N, EndsBy A N :=
  h.elim (fun h => exists_endsBy hA (.inr (h.joined hA))) (exists_endsBy_map hι hA)

/-- **C73** If an IET has a saddle connection or a periodic point, then there is a number of rounds of induction that suffices to find a connection: with
this limit, and with all larger limits, `induce()` reports a connection (or CYLINDER when there is only one interval, or that it saw a similar IET, see C71). -/
theorem C73_induce [Archimedean T] (H : LawfulLengths O c ε) {L : PPL} (hL : L.Lawful) {w : World σ T} (h : Reachable H L w) {E : IET T} (hE : E ∈ w.pieces)
    {ι : T →+ P} (hι : StrictMono ι) (hex : (H.abs E w.lengths).HasConnection ∨ ∃ x, Periodic ((H.abs E w.lengths).map ι).Maps x) :
    ∃ N : ℕ, ∀ limit : ℕ, N ≤ limit → ∀ fuel, ∃ step E' s', E.induce L O fuel limit w.lengths = .ok (step, E', s') ∧
      step.result ≠ .limitReached ∧ step.result ≠ .withoutPeriodicTrajectoryBoshernitzan := by
  have hg := h.good hL hE
  obtain ⟨N, hN⟩ := exists_endsBy_of hι hg.ok.valid hex
  refine ⟨N, fun limit hl fuel => ?_⟩
  rcases induce_spec H hL fuel limit E w.lengths hg with ⟨-, h1⟩ | ⟨step, E', s', h1, -⟩
  · omega
  refine ⟨step, E', s', h1, ?_⟩
  cases induce_rounds H hL hg h1 with
  | cylinder => simp
  | auto => simp
  | all _ hit hf =>
    rw [Int.toNat_natCast] at hit
    cases hf with
    | separating => simp
    | nonSeparating => simp
    | boshernitzan _ _ t3 => exact absurd t3 (hN limit hl _ hit)
    | limit _ _ t3 => exact absurd t3 (hN limit hl _ hit)
  | found _ _ _ hf hh =>
    cases hf with
    | separating => simp
    | nonSeparating => simp
    | boshernitzan _ _ _ t4 => exact absurd hh t4
    | limit _ _ _ t4 => exact absurd hh t4

/-- **C73** When `induce()` keeps reporting LIMIT_REACHED (or WITHOUT_PERIODIC_TRAJECTORY_BOSHERNITZAN) for larger and larger limits, then the IET has neither
saddle connections nor periodic points. -/
theorem C73_induce_never [Archimedean T] (H : LawfulLengths O c ε) {L : PPL} (hL : L.Lawful) {w : World σ T} (h : Reachable H L w) {E : IET T} (hE : E ∈ w.pieces)
    (hnever : ∀ N : ℕ, ∃ limit : ℕ, N ≤ limit ∧ ∃ fuel step E' s', E.induce L O fuel limit w.lengths = .ok (step, E', s') ∧
      (step.result = .limitReached ∨ step.result = .withoutPeriodicTrajectoryBoshernitzan)) {ι : T →+ P} (hι : StrictMono ι) :
    ¬ (H.abs E w.lengths).HasConnection ∧ ¬ ∃ x, Periodic ((H.abs E w.lengths).map ι).Maps x := by
  rw [← not_or]
  intro hex
  obtain ⟨N, hN⟩ := C73_induce H hL h hE hι hex
  obtain ⟨limit, h1, fuel, step, E', s', h2, h3⟩ := hnever N
  obtain ⟨_, _, _, g1, g2, g3⟩ := hN limit h1 fuel
  rw [h2] at g1
  cases g1
  exact h3.elim g2 g3

/-- **C73** If a component has a saddle connection or a periodic point, then there is a number of rounds of induction that suffices: with this limit, and with all
larger limits, `decompositionStep()` does not report LIMIT_REACHED. -/
theorem C73_decompositionStep [Archimedean T] (H : LawfulLengths O c ε) {L : PPL} (hL : L.Lawful) {E : IET T} {s : σ} (hE : H.Ok E s)
    {D : Decomp σ T} {steps : List DStep} (h : DReach L O E s D steps) {i : ℕ} {x : Comp T} (hi : D.comps[i]? = some x) {ι : T →+ P} (hι : StrictMono ι)
    (hex : (H.abs x.iet D.lengths.inner).HasConnection ∨ ∃ y, Periodic ((H.abs x.iet D.lengths.inner).map ι).Maps y) :
    ∃ N : ℕ, ∀ limit : ℕ, N ≤ limit → ∀ fuel, ∃ step D', D.decompositionStep L O fuel limit i = .ok (step, D') ∧ step.result ≠ .limitReached ∧
      ((∃ y, Periodic ((H.abs x.iet D.lengths.inner).map ι).Maps y) → step.result ≠ .withoutPeriodicTrajectoryBoshernitzan) := by
  have hinv := h.inv hL H (ι := AddMonoidHom.id T) (fun _ _ h => h) hE
  have hv : (H.abs x.iet D.lengths.inner).Valid := (hinv.good _ (List.mem_of_getElem? hi)).ok.valid
  obtain ⟨N, hN⟩ := exists_endsBy_of hι hv hex
  refine ⟨N, fun limit hl fuel => ?_⟩
  obtain ⟨step, D', h1, -⟩ := decompositionStepBounded_spec (fun _ _ h => h) hL hinv hi (limit := (limit : ℤ)) (by omega)
  have hr : D.decompositionStep L O fuel limit i = .ok (step, D') := by
    unfold Decomp.decompositionStep
    rw [if_neg (by omega), h1]
  refine ⟨step, D', hr, ?_⟩
  obtain ⟨x₀, x', k, ist, E₀, s₀, s', g1, g2, g3, g4, g5, g6, g7, g8, g9, g10, g11, g12, -⟩ := decompositionStep_induce H hL hE h (by omega) hr
  rw [hi] at g1
  cases g1
  have ea : H.abs x.iet D.lengths.inner = (LWC.lawful H).abs E₀ s₀ := by
    simp only [LawfulLengths.abs, ← g6, ← g7, ← g8]; rfl
  rw [g12] at g5 ⊢
  rw [ea] at hN hv ⊢
  generalize hE' : x'.iet = E' at g10
  cases g10 with
  | cylinder => simp [Result.toD]
  | auto => simp [Result.toD]
  | @all E₁ _ _ _ _ hit hf =>
    cases hf with
    | separating => simp [Result.toD]
    | nonSeparating => simp [Result.toD]
    | boshernitzan _ _ t3 _ t5 =>
      refine ⟨by simp [Result.toD], fun hp _ => ?_⟩
      obtain ⟨δ, hδ⟩ := ((rounds_steps hv hit).map hι).fwd (hv.map hι)
      obtain ⟨y, hy⟩ := hδ.periodic_iff.mp hp
      exact t5 (relation_of_periodic c (rounds_valid hv hit) hι hy)
    | limit _ _ t3 =>
      obtain rfl := g5 rfl
      exact absurd t3 (hN limit hl _ (by rwa [Int.toNat_natCast] at hit))
  | found _ _ _ hf hh =>
    cases hf with
    | separating => simp [Result.toD]
    | nonSeparating => simp [Result.toD]
    | boshernitzan _ _ _ t4 => exact absurd hh t4
    | limit _ _ _ t4 => exact absurd hh t4

/-- **C73** If a component has a saddle connection or a periodic point, then `decompositionStep()` without a limit returns, unless the SAF invariant of the component is
zero and there are `2 ^ 30 - 1` rounds of induction without a connection so that the limit, an `int`, could overflow. -/
theorem C73_unlimited [Archimedean T] (H : LawfulLengths O c ε) (hc : ∀ x, c x = 0 → x = 0) {L : PPL} (hL : L.Lawful) {E : IET T} {s : σ} (hE : H.Ok E s)
    {D : Decomp σ T} {steps : List DStep} (h : DReach L O E s D steps) {i : ℕ} {x : Comp T} (hi : D.comps[i]? = some x) {ι : T →+ P} (hι : StrictMono ι)
    (hex : (H.abs x.iet D.lengths.inner).HasConnection ∨ ∃ y, Periodic ((H.abs x.iet D.lengths.inner).map ι).Maps y)
    (hshort : (∀ v ∈ safList c (H.abs x.iet D.lengths.inner), v = 0) → ¬ ∃ n B, 2 ^ 30 - 1 ≤ n ∧ Iter Round n (H.abs x.iet D.lengths.inner) B) :
    ∃ fuel step D', step.result ≠ .limitReached ∧ ∀ n, fuel ≤ n → D.decompositionStep L O n (-1) i = .ok (step, D') := by
  have hinv := h.inv hL H (ι := AddMonoidHom.id T) (fun _ _ h => h) hE
  obtain ⟨N, hN⟩ := exists_endsBy_of hι (hinv.good _ (List.mem_of_getElem? hi)).ok.valid hex
  obtain ⟨r, h1, ⟨step, D', rfl⟩ | ⟨-, h2, h3⟩⟩ := step_settles hL hc hinv hi hN.settles
  · refine ⟨N + 2, step, D', ?_, h1⟩
    obtain ⟨_, -, -, hl, -⟩ := h.effect hL H hE (h1 (N + 2) (le_refl _))
    exact hl rfl
  · exact absurd h3 (hshort h2)

/-- From one state of a decomposition one gets to the other one by steps (with any limits on any components). -/
def Continues (L : PPL) (O : LengthsOps σ T) : Decomp σ T → Decomp σ T → Prop :=
  Relation.ReflTransGen (fun D D' => ∃ fuel limit i step, D.decompositionStep L O fuel limit i = .ok (step, D'))

theorem Continues.reach {L : PPL} {E : IET T} {s : σ} {D D' : Decomp σ T} {steps : List DStep} (h : DReach L O E s D steps) (hc : Continues L O D D') :
    ∃ steps', DReach L O E s D' steps' := by
  induction hc with
  | refl => exact ⟨_, h⟩
  | tail _ h' ih =>
    obtain ⟨steps', ih⟩ := ih
    obtain ⟨fuel, limit, i, step, hr⟩ := h'
    exact ⟨_, .step fuel limit i ih hr⟩

/-- How much can still be split or merged. -/
def Decomp.weight (D : Decomp σ T) : ℕ := (D.comps.map (fun x => 2 * x.iet.top.length - 1)).sum

theorem sum_map_set {α : Type} {f : α → ℕ} {x x' : α} : ∀ {l : List α} {i : ℕ}, l[i]? = some x → ((l.set i x').map f).sum + f x = (l.map f).sum + f x'
  | [], i, h => by simp at h
  | z :: l, 0, h => by simp at h; subst h; simp; omega
  | z :: l, i + 1, h => by
    have := sum_map_set (f := f) (x' := x') (show l[i]? = some x by simpa using h)
    simp only [List.set_cons_succ, List.map_cons, List.sum_cons]
    omega

theorem CompsEffect.weight {D D' : Decomp σ T} {i : ℕ} {x : Comp T} {step : DStep} (h : CompsEffect D.comps i x step D'.comps) (hi : D.comps[i]? = some x)
    (hres : step.result = .separatingConnection ∨ step.result = .nonSeparatingConnection) : D'.weight < D.weight := by
  unfold Decomp.weight
  generalize D'.comps = cs at h
  cases h with
  | same _ _ _ e1 e2 => exact (hres.elim e1 e2).elim
  | @split x' y _ _ _ _ a4 a5 a6 =>
    have h1 := sum_map_set (f := fun x : Comp T => 2 * x.iet.top.length - 1) (x' := x') hi
    have h2 := a4.length_eq
    have p1 := List.length_pos_of_ne_nil a5
    have p2 := List.length_pos_of_ne_nil a6
    rw [List.length_append] at h2
    simp only [List.map_append, List.sum_append, List.map_cons, List.map_nil, List.sum_cons, List.sum_nil] at h1 ⊢
    omega
  | @merge x' _ _ _ _ a4 a5 =>
    have h1 := sum_map_set (f := fun x : Comp T => 2 * x.iet.top.length - 1) (x' := x') hi
    have h2 := a4.length_eq
    have p1 := List.length_pos_of_ne_nil a5
    rw [List.length_cons] at h2
    omega

/-- A component for which the induction comes to an end and that is not a cylinder is going to be split or merged eventually. -/
theorem exists_progress (H : LawfulLengths O c ε) {L : PPL} (hL : L.Lawful) {E : IET T} {s : σ} (hE : H.Ok E s) {i : ℕ} :
    ∀ (N t : ℕ) {D : Decomp σ T} {steps : List DStep} {x : Comp T}, DReach L O E s D steps → D.comps[i]? = some x → x.iet.top.length ≠ 1 →
      EndsBy (H.abs x.iet D.lengths.inner) N → x.iet.tracker.ttl ≤ t →
      ∃ D', Continues L O D D' ∧ D'.weight < D.weight := by
  intro N
  induction N using Nat.strong_induction_on with
  | _ N ihN =>
  intro t
  induction t using Nat.strong_induction_on with
  | _ t iht =>
  intro D steps x h hi hlen hN ht
  have hinv := h.inv hL H (ι := AddMonoidHom.id T) (fun _ _ h => h) hE
  have hv : (H.abs x.iet D.lengths.inner).Valid := (hinv.good _ (List.mem_of_getElem? hi)).ok.valid
  -- A reducible component can be split right away.
  obtain ⟨n, hn, hn'⟩ : ∃ n : ℕ, ((H.abs x.iet D.lengths.inner).Irreducible → n = N ∧ 1 ≤ N) ∧ (¬ (H.abs x.iet D.lengths.inner).Irreducible → n = 0) := by
    by_cases hi : (H.abs x.iet D.lengths.inner).Irreducible
    · refine ⟨N, fun _ => ⟨rfl, ?_⟩, fun h => absurd hi h⟩
      by_contra h0
      exact hN 0 (by omega) _ rfl hi
    · exact ⟨0, fun h => absurd h hi, fun _ => rfl⟩
  obtain ⟨step, D', h1, -⟩ := decompositionStepBounded_spec (fun _ _ h => h) hL hinv hi (limit := (n : ℤ)) (by omega)
  have hr : D.decompositionStep L O 0 n i = .ok (step, D') := by
    unfold Decomp.decompositionStep
    rw [if_neg (by omega), h1]
  have hc : Continues L O D D' := .single ⟨0, n, i, step, hr⟩
  have h' : DReach L O E s D' (steps ++ [step]) := .step 0 n i h hr
  obtain ⟨x₁, hi₁, heff, -⟩ := h.effect hL H hE hr
  rw [hi] at hi₁
  cases hi₁
  by_cases hfound : step.result = .separatingConnection ∨ step.result = .nonSeparatingConnection
  · exact ⟨D', hc, heff.weight hi hfound⟩
  obtain ⟨x₀, x', k, ist, E₀, s₀, s', g1, g2, g3, g4, g5, g6, g7, g8, g9, g10, g11, g12, -, g14, g15⟩ := decompositionStep_induce H hL hE h (by omega) hr
  rw [hi] at g1
  cases g1
  have ea : H.abs x.iet D.lengths.inner = (LWC.lawful H).abs E₀ s₀ := by
    simp only [LawfulLengths.abs, ← g6, ← g7, ← g8]; rfl
  have eb : H.abs x'.iet D'.lengths.inner = (LWC.lawful H).abs x'.iet s' := by
    simp only [LawfulLengths.abs, ← g9]; rfl
  have hirr : ∀ (m : ℕ) B, (m : ℤ) ≤ n → Iter Round m (H.abs x.iet D.lengths.inner) B → B.Irreducible → (m : ℤ) ≠ n := by
    intro m B hm hit hB e
    by_cases hi : (H.abs x.iet D.lengths.inner).Irreducible
    · exact hN m (by have := hn hi; omega) B hit hB
    · obtain rfl : m = 0 := by have := hn' hi; omega
      cases hit
      exact hi hB
  have hw : D'.weight = D.weight := by
    obtain ⟨cs', l'⟩ := D'
    simp only at heff
    cases heff with
    | split e => exact absurd (.inl e) hfound
    | merge e => exact absurd (.inr e) hfound
    | @same x'' _ _ _ _ _ a6 =>
      have h1 := sum_map_set (f := fun x : Comp T => 2 * x.iet.top.length - 1) (x' := x'') hi
      have h2 := a6.length_eq
      unfold Decomp.weight
      simp only at h1 ⊢
      omega
  -- Otherwise, one continues with what is left.
  have next : ∀ m : ℕ, m < n → Iter Round m (H.abs x.iet D.lengths.inner) (H.abs x'.iet D'.lengths.inner) → (m = 0 → x'.iet.tracker.ttl < x.iet.tracker.ttl) →
      ∃ D'', Continues L O D D'' ∧ D''.weight < D.weight := by
    intro m hkn hit httl
    have hirr' : (H.abs x.iet D.lengths.inner).Irreducible := by
      by_contra h0
      have := hn' h0
      omega
    obtain ⟨rfl, -⟩ := hn hirr'
    have hlen' : x'.iet.top.length ≠ 1 := by
      have := (Steps.top_perm (rounds_steps hv hit)).length_eq
      simp only [LawfulLengths.abs] at this
      rw [this]; exact hlen
    have hends : EndsBy (H.abs x'.iet D'.lengths.inner) (n - m) := fun j hj B hB => hN (m + j) (by omega) B (hit.trans' hB)
    have next : (∃ D'', Continues L O D' D'' ∧ D''.weight < D'.weight) → ∃ D'', Continues L O D D'' ∧ D''.weight < D.weight := by
      rintro ⟨D'', a1, a2⟩
      exact ⟨D'', hc.trans a1, by rw [← hw]; exact a2⟩
    apply next
    by_cases hm0 : m = 0
    · subst hm0
      have := httl rfl
      exact iht (x'.iet.tracker.ttl) (by omega) h' g2 hlen' hends (le_refl _)
    · exact ihN (n - m) (by omega) _ h' g2 hlen' hends (le_refl _)
  rw [g12] at hfound g5
  obtain ⟨E', hE'⟩ : ∃ E', E' = x'.iet := ⟨_, rfl⟩
  rw [← hE'] at g10
  cases g10 with
  | cylinder e => rw [g6] at e; exact absurd e hlen
  | @auto _ _ m hm hit httl =>
    rw [hE', ← ea, ← eb] at hit
    rw [g14, hE'] at httl
    exact next m (by have := hm g4; omega) hit httl
  | @all E₁ _ _ _ _ hit hf =>
    rw [← ea] at hit
    have hkn : (k.toNat : ℤ) ≤ n := by omega
    cases hf with
    | separating => exact absurd (.inl rfl) hfound
    | nonSeparating => exact absurd (.inr rfl) hfound
    | boshernitzan t1 t2 t3 =>
      have hne := hirr _ _ hkn hit t3
      refine next k.toNat (by omega) ?_ (fun e => ?_)
      · rw [eb]
        have : (LWC.lawful H).abs x'.iet s' = (LWC.lawful H).abs E₁ s' := by
          simp only [LawfulLengths.abs, ← hE', t1, t2]
        rw [this]
        exact hit
      · exfalso
        have := g15 (by omega)
        omega
    | limit _ _ t3 =>
      obtain rfl := g5 rfl
      exact absurd rfl (hirr n _ (le_refl _) (by rwa [Int.toNat_natCast] at hit) t3)
  | found _ _ _ hf hh =>
    cases hf with
    | separating => exact absurd (.inl rfl) hfound
    | nonSeparating => exact absurd (.inr rfl) hfound
    | boshernitzan _ _ _ t4 => exact absurd hh t4
    | limit _ _ _ t4 => exact absurd hh t4

/-- **C73** From every state of a decomposition one can get, by finitely many further steps with limits, to a state in which all components are cylinders, i.e.,
have a single interval, or do not have periodic points. -/
theorem C73_settle [Archimedean T] (H : LawfulLengths O c ε) {L : PPL} (hL : L.Lawful) {E : IET T} {s : σ} (hE : H.Ok E s)
    {D : Decomp σ T} {steps : List DStep} (h : DReach L O E s D steps) : ∃ D', Continues L O D D' ∧ D'.Settled H := by
  have key : ∀ (n : ℕ) {D : Decomp σ T} {steps : List DStep}, D.weight ≤ n → DReach L O E s D steps → ∃ D', Continues L O D D' ∧ D'.Settled H := by
    intro n
    induction n with
    | zero =>
      intro D steps hw h
      refine ⟨D, .refl, fun x hx => .inl ?_⟩
      have h1 := List.length_pos_of_ne_nil (h.labels H hL hE hx).2.1
      have h2 : 2 * x.iet.top.length - 1 ≤ D.weight := List.single_le_sum (by simp) _ (List.mem_map_of_mem hx)
      omega
    | succ n ih =>
      intro D steps hw h
      by_cases hD : D.Settled H
      · exact ⟨D, .refl, hD⟩
      unfold Decomp.Settled at hD
      push Not at hD
      obtain ⟨x, hx, hlen, hper⟩ := hD
      obtain ⟨i, hi⟩ := List.getElem?_of_mem hx
      obtain ⟨N, hN⟩ := exists_endsBy (h.valid hL H hE x hx) (.inl hper)
      obtain ⟨D', h1, h2⟩ := exists_progress H hL hE N _ h hi hlen hN (le_refl _)
      obtain ⟨steps', h'⟩ := h1.reach h
      obtain ⟨D'', h3, h4⟩ := ih (by omega) h'
      exact ⟨D'', h1.trans h3, h4⟩
  exact key _ (le_refl _) h

/-- **C73** The cylinders of an IET are well defined and can always be found: there is a list of labels and lengths such that every decomposition of the IET, however
far it has been taken and in whatever order, has some of these cylinders and no others, and such that one can continue to decompose until all of them have been found. -/
theorem C73_cylinders [Archimedean T] (H : LawfulLengths O c ε) {L : PPL} (hL : L.Lawful) {E : IET T} {s : σ} (hE : H.Ok E s) :
    ∃ all : List (Label × T), ∀ {D : Decomp σ T} {steps : List DStep}, DReach L O E s D steps →
      (D.cylinders H).Subperm all ∧ ∃ D', Continues L O D D' ∧ (D'.cylinders H).Perm all := by
  obtain ⟨D₀, h0, -⟩ := Decomp.make_spec H (ι := AddMonoidHom.id T) (fun _ _ h => h) hE
  obtain ⟨D₁, h1, h2⟩ := C73_settle H hL hE (.init h0)
  obtain ⟨steps₁, h3⟩ := h1.reach (.init h0)
  refine ⟨D₁.cylinders H, fun {D steps} h => ⟨C72_cylinders H hL hE h h3 h2, ?_⟩⟩
  obtain ⟨D', h4, h5⟩ := C73_settle H hL hE h
  obtain ⟨steps', h6⟩ := h4.reach h
  exact ⟨D', h4, C72_same H hL hE h6 h3 h5 h2⟩

/-! ### An example with lengths in a cubic field -/

namespace Examples

instance cubic_archimedean : Archimedean Cubic where
  arch x y hy := by
    obtain ⟨n, hn⟩ := Archimedean.arch (Cubic.toReal x) (show 0 < Cubic.toReal y by rw [← map_zero Cubic.toReal]; exact Cubic.toReal_strictMono hy)
    exact ⟨n, (Cubic.le_iff _ _).mpr (by rwa [map_nsmul])⟩

/-- The lengths `1 + 2α²`, `α`, `1`, `α²`, which have three independent coordinates, of intervals that are reversed. -/
def connIET : IET Cubic := .fresh [0, 1, 2, 3] [3, 2, 1, 0]
def connState : SLengths Cubic := ⟨[], [⟨1, 0, 2⟩, ⟨0, 1, 0⟩, ⟨1, 0, 0⟩, ⟨0, 0, 1⟩]⟩
theorem conn_ok : hCubic.Ok connIET connState := sample_ok _ _ _ _ (by decide +kernel)

/-- The right end point of the bottom interval 3 is mapped to the right end point of the top interval 1. -/
theorem conn_connection : (hCubic.abs connIET connState).HasConnection :=
  ⟨1, by decide, 3, by decide, 1, _, ⟨0, by decide, by decide +kernel, by decide +kernel, rfl⟩, show _ = _ by decide +kernel⟩

end Examples

open Examples in
/-- When the limit is large enough then `induce()` finds it. -/
example : ∃ N : ℕ, ∀ limit : ℕ, N ≤ limit → ∀ fuel, ∃ step E' s', connIET.induce PPL.ideal (SLengths.ops cubicArith) fuel limit connState = .ok (step, E', s') ∧
    step.result ≠ .limitReached ∧ step.result ≠ .withoutPeriodicTrajectoryBoshernitzan :=
  C73_induce hCubic PPL.ideal_lawful (sample_reachable _ _ conn_ok) (List.mem_singleton.mpr rfl) Cubic.toReal_strictMono (ι := (Cubic.toReal : Cubic →+ ℝ)) (.inl conn_connection)

open Examples in
/-- One can find all of its cylinders. -/
example : ∃ all : List (Label × Cubic), ∀ {D : Decomp (SLengths Cubic) Cubic} {steps : List DStep}, DReach PPL.ideal (SLengths.ops cubicArith) connIET connState D steps →
    (D.cylinders hCubic).Subperm all ∧ ∃ D', Continues PPL.ideal (SLengths.ops cubicArith) D D' ∧ (D'.cylinders hCubic).Perm all :=
  C73_cylinders hCubic PPL.ideal_lawful conn_ok

end Verif
