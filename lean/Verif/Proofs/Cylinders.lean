import Verif.Proofs.Logarithmic
import Verif.Props.Rounds
import Verif.Props.Target

/-!
# Decompositions of commensurable lengths
-/

namespace Verif

set_option linter.unusedSectionVars false

variable {σ T ε : Type} [CommRing T] [LinearOrder T] [IsStrictOrderedRing T] {O : LengthsOps σ T} {d : ℕ} {c : T →+ (Fin d → ℚ)}

/-! ### The SAF invariant of commensurable lengths -/

theorem off_mult {u : T} {k : Label → ℕ} {len : Label → T} : ∀ {l : List Label} (_ : ∀ a ∈ l, len a = (k a : T) * u) (x : Label),
    ∃ n : ℕ, off len l x = n • u
  | [], _, x => ⟨0, by simp [off]⟩
  | b :: l, h, x => by
    obtain ⟨n, hn⟩ := off_mult (fun a ha => h a (List.mem_cons_of_mem _ ha)) x
    unfold off
    split
    · exact ⟨0, by simp⟩
    · refine ⟨k b + n, ?_⟩
      rw [hn, h b (by simp), add_nsmul, nsmul_eq_mul, nsmul_eq_mul]

theorem Mult.saf {u : T} {k : Label → ℕ} {A : AIET T} (hA : A.Valid) (h : Mult u k A) (φ ψ : T →+ ℚ) : A.saf φ ψ = 0 := by
  unfold AIET.saf
  have hz : ∀ a ∈ A.top, φ (A.len a) * ψ (A.transl a) - ψ (A.len a) * φ (A.transl a) = 0 := by
    intro a ha
    obtain ⟨n, hn⟩ := off_mult (l := A.top) h a
    obtain ⟨m, hm⟩ := off_mult (l := A.bottom) (fun b hb => h b (hA.perm.mem_iff.mp hb)) a
    have h1 : A.len a = (k a) • u := by rw [h a ha, nsmul_eq_mul]
    unfold AIET.transl
    rw [hn, hm, h1, map_sub, map_sub]
    rw [map_nsmul, map_nsmul, map_nsmul, map_nsmul, map_nsmul, map_nsmul]
    simp only [nsmul_eq_mul]
    ring
  have : A.top.map (fun a => φ (A.len a) * ψ (A.transl a) - ψ (A.len a) * φ (A.transl a)) = A.top.map (fun _ => (0 : ℚ)) :=
    List.map_congr_left hz
  rw [this]
  simp

theorem Mult.safList {u : T} {k : Label → ℕ} {A : AIET T} (hA : A.Valid) (h : Mult u k A) : ∀ v ∈ safList c A, v = 0 := by
  intro v hv
  unfold Verif.safList at hv
  split at hv
  · cases hv
  · rw [List.mem_map] at hv
    obtain ⟨p, _, rfl⟩ := hv
    exact h.saf hA _ _

/-! ### Lengths decrease -/

theorem RauzyStep.len_le {A B : AIET T} (hA : A.Valid) (h : RauzyStep A B) (x : Label) : B.len x ≤ A.len x := by
  have key : ∀ {A B : AIET T}, A.Valid → RauzyTop A B → B.len x ≤ A.len x := by
    intro A B hA h
    obtain ⟨a, b, h1, h2, h3, h4, h5⟩ := h.data
    rw [h5]
    have := hA.pos b (hA.perm.mem_iff.mp (List.mem_of_head? h2))
    unfold shorten
    split
    · rename_i e; rw [e]; linarith
    · exact le_refl _
  rcases h with h | h
  · exact key hA h
  · exact key (A := A.inv) (B := B.inv) hA.inv h

theorem Steps.len_le {A B : AIET T} (hA : A.Valid) (h : Steps A B) (x : Label) : B.len x ≤ A.len x := by
  induction h with
  | refl => exact le_refl _
  | tail h1 h2 ih => exact le_trans (h2.len_le (Steps.valid hA h1) x) ih

/-- The labels of the components after a step. -/
theorem CompsEffect.mem {comps comps' : List (Comp T)} {i : ℕ} {x : Comp T} {step : DStep} (h : CompsEffect comps i x step comps')
    {z : Comp T} (hz : z ∈ comps') : (∀ a ∈ z.iet.top, a ∈ x.iet.top) ∨ z ∈ comps := by
  cases h with
  | same _ _ _ _ _ h6 =>
    rcases List.mem_or_eq_of_mem_set hz with h | h
    · exact .inr h
    · subst h; exact .inl (fun a ha => h6.mem_iff.mp ha)
  | split _ _ _ h4 =>
    rcases List.mem_append.mp hz with h | h
    · rcases List.mem_or_eq_of_mem_set h with h | h
      · exact .inr h
      · subst h; exact .inl (fun a ha => h4.mem_iff.mp (List.mem_append_left _ ha))
    · rw [List.mem_singleton] at h
      subst h; exact .inl (fun a ha => h4.mem_iff.mp (List.mem_append_right _ ha))
  | merge _ _ _ h4 =>
    rcases List.mem_or_eq_of_mem_set hz with h | h
    · exact .inr h
    · subst h; exact .inl (fun a ha => h4.mem_iff.mp (List.mem_cons_of_mem _ ha))

theorem logBound_mono {k k' : Label → ℕ} {l : List Label} (h : ∀ a ∈ l, k a ≤ k' a) : logBound k l ≤ logBound k' l := by
  unfold logBound
  apply Nat.mul_le_mul_left
  apply Nat.add_le_add_left
  apply List.sum_le_sum
  intro a ha
  exact Nat.log_mono_right (h a ha)

theorem logBound_subset {k : Label → ℕ} {l l' : List Label} (hl : l.Nodup) (h : ∀ a ∈ l, a ∈ l') : logBound k l ≤ logBound k l' := by
  obtain ⟨m, hp, hs⟩ := List.subperm_of_subset hl h
  unfold logBound
  have h1 : l.length ≤ l'.length := hp.length_eq ▸ hs.length_le
  have h2 : (l.map (fun a => Nat.log 2 (k a))).sum ≤ (l'.map (fun a => Nat.log 2 (k a))).sum := by
    rw [← (hp.map _).sum_eq]
    exact List.Sublist.sum_le_sum (hs.map _) (by simp)
  exact Nat.mul_le_mul h1 (by omega)

/-! ### Steps of decompositions -/

/-- All lengths are multiples of `u`, not larger than prescribed ones. -/
def Small (H : LawfulLengths O c ε) (u : T) (k : Label → ℕ) (D : Decomp σ T) : Prop :=
  ∀ x ∈ D.comps, ∀ a ∈ x.iet.top, ∃ m : ℕ, m ≤ k a ∧ H.len D.lengths.inner a = (m : T) * u

theorem Small.mult {H : LawfulLengths O c ε} {u : T} {k : Label → ℕ} {D : Decomp σ T} (h : Small H u k D) {x : Comp T} (hx : x ∈ D.comps) :
    ∃ k' : Label → ℕ, (∀ a ∈ x.iet.top, k' a ≤ k a) ∧ ∀ a ∈ x.iet.top, H.len D.lengths.inner a = (k' a : T) * u := by
  classical
  refine ⟨fun a => if ha : a ∈ x.iet.top then (h x hx a ha).choose else 0, ?_, ?_⟩
  · intro a ha
    simp only [dif_pos ha]
    exact (h x hx a ha).choose_spec.1
  · intro a ha
    simp only [dif_pos ha]
    exact (h x hx a ha).choose_spec.2

variable {H : LawfulLengths O c ε} {A₀ : AIET T} {R : List Conn} {au : Bool → Prop}

theorem bounded_small {L : PPL} (hL : L.Lawful) {D D' : Decomp σ T} (hinv : D.Inv H (AddMonoidHom.id T) A₀ R au) {i : ℕ} {x : Comp T}
    (hi : D.comps[i]? = some x) {limit : ℤ} (hlimit : limit ≠ -1) {u : T} (hu : 0 < u) {k : Label → ℕ} (hS : Small H u k D) {step : DStep}
    (hr : D.decompositionStepBounded L O limit i = .ok (step, D')) :
    Small H u k D' ∧ step.result ≠ .withoutPeriodicTrajectoryAutoSimilar ∧ step.result ≠ .withoutPeriodicTrajectoryBoshernitzan ∧
      (step.result = .limitReached → 2 * limit.toNat ≤ logBound k x.iet.top) := by
  have hx := List.mem_of_getElem? hi
  obtain ⟨st', D₁, q1, q2, q3, q4, -⟩ := decompositionStepBounded_spec (fun _ _ h => h) hL hinv hi hlimit
  rw [q1] at hr
  cases hr
  obtain ⟨k', hk', hm⟩ := hS.mult hx
  have hk : ¬ (x.cylinder = some true ∧ x.keane = some true) := fun h' => (hinv.flags x hx).keane h'.2
  set s : LWC σ := { D.lengths with others := D.others i } with hs
  have hg : (LWC.lawful H).Good x.iet s := LWC.good_congr (hinv.good x hx) rfl rfl rfl
  set E₀ : IET T := { x.iet with safCache := some (safList c ((LWC.lawful H).unswapped x.iet s)) } with hE₀
  have hgE : (LWC.lawful H).Good E₀ s := hg.setCache
  set cost : Option ℤ := if ∀ v ∈ safList c (H.abs x.iet s.inner), v = 0 then none else some 64 with hcost
  have hcost' : ∀ v, cost = some v → 0 < v := by
    intro v hv
    rw [hcost] at hv
    split at hv
    · cases hv
    · cases hv; norm_num
  obtain ⟨n, ist, E', s', k1, k2, k3, k4, k5, k6⟩ := chunks_induce H hL cost hcost' (limit.toNat + 1) limit E₀ s hlimit (Nat.lt_succ_self _) hgE
  obtain ⟨ist', E'', s'', c1, c2, c3, -⟩ := chunks_spec H hL cost hcost' (limit.toNat + 1) limit E₀ s hlimit (Nat.lt_succ_self _) hgE
  rw [k4] at c1
  cases c1
  have hset : (D.comps.set i ({ x with iet := E' } : Comp T))[i]? = some { x with iet := E' } := by
    rw [List.getElem?_set_self (List.getElem?_eq_some_iff.mp hi).1]
  have hrun : D.decompositionStepBounded L O limit i =
      Decomp.conclude { comps := D.comps.set i { x with iet := E' }, lengths := s' } i ist := by
    unfold Decomp.decompositionStepBounded
    simp only [Decomp.comp_ok hi, assertM, bind, Except.bind]
    rw [if_pos (decide_eq_true hk)]
    simp only
    rw [boshernitzanCost_spec H hg]
    simp only
    rw [k4]
    rfl
  rw [hrun] at q1
  obtain ⟨f1, f2, -, -⟩ := Decomp.conclude_frame q1 hset
  simp only at f1
  have hmult : Mult u k' ((LWC.lawful H).abs E₀ s) := hm
  have hmoves : ∃ E₁, Moves (LWC.lawful H) (E₀, s) (E₁, s') := by
    cases c2 with
    | cylinder h => exact ⟨_, h⟩
    | auto h => exact ⟨_, h⟩
    | finish h => exact ⟨_, h⟩
  have hnew : ∀ a ∈ x.iet.top, ∃ m : ℕ, m ≤ k a ∧ H.len D'.lengths.inner a = (m : T) * u := by
    intro a ha
    obtain ⟨E₁, hmv⟩ := hmoves
    obtain ⟨k₁, hk₁⟩ := Steps.mult_fwd hu hgE.ok.valid hmv.steps hmult
    have h1 : a ∈ E₁.top := hmv.top_perm.mem_iff.mpr ha
    have h2 := hk₁ a h1
    have h3 := Steps.len_le hgE.ok.valid hmv.steps a
    have h4 : ((LWC.lawful H).abs E₀ s).len a = (k' a : T) * u := hm a ha
    rw [h2, h4] at h3
    have h5 : k₁ a ≤ k' a := by exact_mod_cast le_of_mul_le_mul_right h3 hu
    refine ⟨k₁ a, le_trans h5 (hk' a ha), ?_⟩
    rw [f1]
    exact h2
  refine ⟨?_, ?_, ?_, ?_⟩
  · intro z hz a ha
    by_cases hax : a ∈ x.iet.top
    · exact hnew a hax
    · rcases q3.mem hz with h | h
      · exact absurd (h a ha) hax
      · rw [q4 a hax]; exact hS z h a ha
  · intro e
    rw [f2] at e
    cases c2 with
    | cylinder => cases e
    | @auto E' s' hmv hl =>
      obtain ⟨k₁, hk₁⟩ := Steps.mult_fwd hu hgE.ok.valid hmv.steps hmult
      exact hl.false (hmv.ok hgE.ok).valid hu hk₁
    | finish _ hf => cases hf <;> cases e
  · intro e
    rw [f2] at e
    cases c2 with
    | cylinder => cases e
    | auto => cases e
    | finish hmv hf =>
      cases hf with
      | separating => cases e
      | nonSeparating => cases e
      | limit => cases e
      | boshernitzan _ _ _ _ _ hne =>
        obtain ⟨k₁, hk₁⟩ := Steps.mult_fwd hu hgE.ok.valid hmv.steps hmult
        exact hne (hk₁.safList (hmv.ok hgE.ok).valid)
  · intro e
    rw [f2] at e
    have e' : ist.result = .limitReached := by
      revert e; cases ist.result <;> simp [Result.toD]
    have := induce_limit_log (LWC.lawful H) hL hgE k5 e' k2 hu hmult
    rw [k6 e'] at this
    exact le_trans this (logBound_mono hk')

/-- The loop without a limit. -/
theorem unlimited_small {L : PPL} (hL : L.Lawful) {i : ℕ} {u : T} (hu : 0 < u) {k : Label → ℕ} {Φ : ℕ} :
    ∀ (n : ℕ) (limit : ℕ) (D : Decomp σ T) (x : Comp T), D.Inv H (AddMonoidHom.id T) A₀ R au → D.comps[i]? = some x → Small H u k D →
    logBound k x.iet.top ≤ Φ →
    (∃ step D', Decomp.unlimited L O none i n limit D = .ok (step, D') ∧ Small H u k D' ∧
      step.result ≠ .withoutPeriodicTrajectoryAutoSimilar ∧ step.result ≠ .withoutPeriodicTrajectoryBoshernitzan) ∨
    ((∃ e, Decomp.unlimited L O none i n limit D = .error e) ∧ ¬ (Φ ≤ 2 ^ 31 - 3 ∧ Φ + 4 < 2 * ((limit + 2) * 2 ^ (n - 1)) ∧ n ≠ 0)) := by
  intro n
  induction n with
  | zero => intro limit D x _ _ _ _; exact .inr ⟨⟨_, rfl⟩, by simp⟩
  | succ n ih =>
    intro limit D x h hi hS hΦ
    obtain ⟨step, D', h1, h2, h3, h4, -⟩ := decompositionStepBounded_spec (fun _ _ h => h) hL h hi (limit := (limit : ℤ)) (by omega)
    obtain ⟨g1, g2, g3, g4⟩ := bounded_small hL h hi (limit := (limit : ℤ)) (by omega) hu hS h1
    simp only [Decomp.unlimited, h1, bind, Except.bind]
    by_cases hr : step.result = .limitReached
    · rw [if_neg (by simpa using hr)]
      obtain ⟨x', e1, e2, e3, e4, e5⟩ := h3.limit hr
      rw [e5, Option.toList_none, List.append_nil] at h2
      have h2 : D'.Inv H (AddMonoidHom.id T) A₀ R au := by
        simpa [AutoReport, hr] using h2
      have hi' : D'.comps[i]? = some x' := by
        rw [e1, List.getElem?_set_self (List.getElem?_eq_some_iff.mp hi).1]
      have hbnd := g4 hr
      rw [Int.toNat_natCast] at hbnd
      have hx' : logBound k x'.iet.top ≤ Φ := by
        refine le_trans (logBound_subset ?_ (fun a ha => e2.mem_iff.mp ha)) hΦ
        exact e2.nodup_iff.mpr (h.good x (List.mem_of_getElem? hi)).ok.valid.nodup
      by_cases hm : 2 * ((limit : ℤ) + 1) ≤ Decomp.intMax
      · simp only [if_pos hm]
        have hcast : (2 * ((limit : ℤ) + 1)) = ((2 * (limit + 1) : ℕ) : ℤ) := by push_cast; ring
        rw [hcast]
        rcases ih (2 * (limit + 1)) D' x' h2 hi' g1 hx' with ⟨st, D'', w1, w2, w3, w4⟩ | ⟨w1, w2⟩
        · exact .inl ⟨st, D'', w1, w2, w3, w4⟩
        · refine .inr ⟨w1, ?_⟩
          rintro ⟨v1, v2, -⟩
          apply w2
          refine ⟨v1, ?_, ?_⟩
          · cases n with
            | zero => simp at v2; omega
            | succ n =>
              simp only [Nat.add_sub_cancel, pow_succ] at v2 ⊢
              have : 0 < 2 ^ n := Nat.pos_of_ne_zero (by simp)
              nlinarith
          · rintro rfl
            simp at v2
            omega
      · simp only [if_neg hm]
        refine .inr ⟨⟨_, rfl⟩, ?_⟩
        rintro ⟨v1, -, -⟩
        unfold Decomp.intMax at hm
        omega
    · rw [if_pos hr]
      exact .inl ⟨step, D', rfl, g1, g2, g3⟩

theorem Small.setComp {u : T} {k : Label → ℕ} {D : Decomp σ T} (h : Small H u k D) {i : ℕ} {x y : Comp T} (hi : D.comps[i]? = some x)
    (hy : y.iet.top = x.iet.top) : Small H u k (D.setComp i y) := by
  intro z hz a ha
  rcases List.mem_or_eq_of_mem_set hz with h' | h'
  · exact h z h' a ha
  · subst h'
    rw [hy] at ha
    exact h x (List.mem_of_getElem? hi) a ha

/-- A step of a decomposition. -/
theorem step_small {L : PPL} (hL : L.Lawful) {D : Decomp σ T} (hinv : D.Inv H (AddMonoidHom.id T) A₀ R au) {i : ℕ} {x : Comp T}
    (hi : D.comps[i]? = some x) {u : T} (hu : 0 < u) {k : Label → ℕ} (hS : Small H u k D) (fuel : ℕ) (limit : ℤ) :
    (∃ step D', D.decompositionStep L O fuel limit i = .ok (step, D') ∧ Small H u k D' ∧
      step.result ≠ .withoutPeriodicTrajectoryAutoSimilar ∧ step.result ≠ .withoutPeriodicTrajectoryBoshernitzan) ∨
    ((∃ e, D.decompositionStep L O fuel limit i = .error e) ∧ limit = -1 ∧ ¬ (logBound k x.iet.top ≤ 2 ^ 31 - 3 ∧ 31 ≤ fuel)) := by
  by_cases hl : limit = -1
  · subst hl
    have hx := List.mem_of_getElem? hi
    have hk : ¬ (x.cylinder = some true ∧ x.keane = some true) := fun h' => (hinv.flags x hx).keane h'.2
    set y : Comp T := { x with iet := { x.iet with safCache := some (safList c ((LWC.lawful H).unswapped x.iet D.lengths)) } } with hy
    have hi' : (D.setComp i y).comps[i]? = some y := by
      simp only [Decomp.setComp]
      rw [List.getElem?_set_self (List.getElem?_eq_some_iff.mp hi).1]
    obtain ⟨k', -, hm⟩ := hS.mult hx
    have hsaf : ∀ v ∈ safList c (H.abs x.iet D.lengths.inner), v = 0 := Mult.safList (hinv.good x hx).ok.valid hm
    have hrun : D.decompositionStep L O fuel (-1) i = Decomp.unlimited L O none i fuel ((0 : ℕ) : ℤ) (D.setComp i y) := by
      unfold Decomp.decompositionStep
      rw [if_pos rfl]
      simp only [Decomp.comp_ok hi, assertM, bind, Except.bind]
      rw [if_pos (decide_eq_true hk)]
      simp only
      rw [boshernitzanCost_spec H (hinv.good x hx), if_pos hsaf]
      rfl
    rw [hrun]
    rcases unlimited_small hL hu (Φ := logBound k x.iet.top) fuel 0 (D.setComp i y) y (hinv.setCache hi) hi' (hS.setComp hi rfl) (le_refl _) with
      h | ⟨h, h'⟩
    · exact .inl h
    · refine .inr ⟨h, rfl, ?_⟩
      rintro ⟨h1, h2⟩
      apply h'
      refine ⟨h1, ?_, by omega⟩
      have : 2 ^ 30 ≤ 2 ^ (fuel - 1) := Nat.pow_le_pow_right (by norm_num) (by omega)
      omega
  · obtain ⟨step, D', h1, -⟩ := decompositionStepBounded_spec (fun _ _ h => h) hL hinv hi hl
    obtain ⟨g1, g2, g3, -⟩ := bounded_small hL hinv hi hl hu hS h1
    refine .inl ⟨step, D', ?_, g1, g2, g3⟩
    unfold Decomp.decompositionStep
    rw [if_neg hl, h1]

end Verif
