import Verif.Proofs.Steps
import Verif.Proofs.Subspace
import Verif.Proofs.Gordan

/-!
# The cache of the SAF invariant and Boshernitzan's criterion
-/

namespace Verif

set_option linter.unusedSectionVars false

section model

variable {σ T ε : Type} [CommRing T] [LinearOrder T] [IsStrictOrderedRing T] {O : LengthsOps σ T}
  {d : ℕ} {c : T →+ (Fin d → ℚ)}

theorem safList_inv {E : AIET T} (hE : E.Valid) : safList c E.inv = (safList c E).map (fun x => -x) := by
  unfold safList
  split
  · rfl
  · rw [List.map_map]
    apply List.map_congr_left
    intro p _
    exact saf_inv _ _ hE

theorem safList_congr {E E' : AIET T} (h : ∀ φ ψ : T →+ ℚ, E'.saf φ ψ = E.saf φ ψ) : safList c E' = safList c E := by
  unfold safList
  split
  · rfl
  · apply List.map_congr_left
    intro p _
    exact h _ _

/-- The abstract IET in the orientation without swap. -/
def LawfulLengths.unswapped (H : LawfulLengths O c ε) (E : IET T) (s : σ) : AIET T :=
  if E.swapped then (H.abs E s).inv else H.abs E s

/-- The cached SAF invariant, if any, is correct (for the orientation without swap). -/
def LawfulLengths.CacheOk (H : LawfulLengths O c ε) (E : IET T) (s : σ) : Prop :=
  ∀ v, E.safCache = some v → v = safList c (H.unswapped E s)

theorem LawfulLengths.unswapped_valid (H : LawfulLengths O c ε) {E : IET T} {s : σ} (h : (H.abs E s).Valid) :
    (H.unswapped E s).Valid := by
  unfold LawfulLengths.unswapped; split
  · exact h.inv
  · exact h

theorem LawfulLengths.Ok.congr {H : LawfulLengths O c ε} {E E' : IET T} {s : σ} (h : H.Ok E s) (h1 : E'.top = E.top)
    (h2 : E'.bottom = E.bottom) : H.Ok E' s := by
  obtain ⟨a1, a2, a3, a4, a5⟩ := h
  refine ⟨a1, a2, h1 ▸ a3, ?_, a5⟩
  simp only [LawfulLengths.abs, h1, h2]; exact a4

theorem saf_spec (H : LawfulLengths O c ε) {E : IET T} {s : σ} (h : H.Ok E s) (hc : H.CacheOk E s) :
    E.saf O s = .ok (safList c (H.unswapped E s), { E with safCache := some (safList c (H.unswapped E s)) }) := by
  unfold IET.saf
  cases hcache : E.safCache with
  | some v =>
    have := hc v hcache
    subst this
    simp only
    congr 2
    rw [← hcache]
  | none =>
    simp only [rawSaf_spec H h, bind, Except.bind, pure, Except.pure]
    have : (if E.swapped = true then (safList c (H.abs E s)).map (fun c => -c) else safList c (H.abs E s)) =
        safList c (H.unswapped E s) := by
      unfold LawfulLengths.unswapped
      split
      · rw [safList_inv h.valid]
      · rfl
    rw [this]

theorem safInvariant_spec (H : LawfulLengths O c ε) {E : IET T} {s : σ} (h : H.Ok E s) (hc : H.CacheOk E s) :
    E.safInvariant O s = .ok (safList c (H.abs E s), { E with safCache := some (safList c (H.unswapped E s)) }) := by
  unfold IET.safInvariant
  rw [saf_spec H h hc]
  simp only [bind, Except.bind, pure, Except.pure]
  congr 2
  unfold LawfulLengths.unswapped
  split
  · rw [safList_inv h.valid]; simp
  · rfl

theorem saf0_spec (H : LawfulLengths O c ε) {E : IET T} {s : σ} (h : H.Ok E s) (hc : H.CacheOk E s) :
    E.saf0 O s = .ok (decide (∀ x ∈ safList c (H.abs E s), x = 0),
      { E with safCache := some (safList c (H.unswapped E s)) }) := by
  unfold IET.saf0
  rw [saf_spec H h hc]
  simp only [bind, Except.bind, pure, Except.pure]
  congr 2
  rw [Bool.eq_iff_iff]
  simp only [List.all_eq_true, decide_eq_true_eq]
  unfold LawfulLengths.unswapped
  split
  · rw [safList_inv h.valid]
    simp only [List.mem_map, forall_exists_index, and_imp, forall_apply_eq_imp_iff₂, neg_eq_zero]
  · rfl

theorem LawfulLengths.CacheOk.some {H : LawfulLengths O c ε} {E : IET T} {s : σ} :
    H.CacheOk { E with safCache := some (safList c (H.unswapped E s)) } s := by
  intro v hv
  simp at hv
  rw [← hv]; rfl

theorem LawfulLengths.CacheOk.none {H : LawfulLengths O c ε} {E : IET T} {s : σ} (h : E.safCache = none) : H.CacheOk E s := by
  intro v hv; rw [h] at hv; cases hv

/-! ### The equations -/

/-- A non-zero relation with non-negative coefficients (one for each interval, in the order of top) between
the coefficient vectors of the translations. -/
def PosRelation (c : T →+ (Fin d → ℚ)) (E : AIET T) : Prop :=
  ∃ x : List ℚ, x.length = E.top.length ∧ (∀ v ∈ x, 0 ≤ v) ∧ (∃ v ∈ x, v ≠ 0) ∧
    ∀ i < d, dot (E.top.map (fun a => coefAt c i (E.transl a))) x = 0

theorem boshernitzanEquations_spec (H : LawfulLengths O c ε) {E : IET T} {s : σ} (h : H.Ok E s) :
    E.boshernitzanEquations O s =
      .ok ((List.range d).map (fun i => E.top.map (fun a => coefAt c i ((H.abs E s).transl a)))) := by
  unfold IET.boshernitzanEquations
  rw [translations_spec H h]
  simp only [bind, Except.bind]
  cases ht : E.top with
  | nil => exact absurd ht h.valid.ne_nil
  | cons x l =>
    simp only [List.map_cons, List.length_ofFn, pure, Except.pure]
    congr 1
    apply List.map_congr_left
    intro i _
    rw [List.map_map, getD_ofFn]
    simp only [coefAt, AddMonoidHom.coe_mk, ZeroHom.coe_mk]
    congr 1
    apply List.map_congr_left
    intro a _
    simp only [Function.comp, getD_ofFn]

theorem solves_equations (d : ℕ) (f : ℕ → List ℚ) (g : ℕ → ℚ) (x : List ℚ) :
    Solves ((List.range d).map f) ((List.range d).map g) x ↔ ∀ i < d, dot (f i) x = g i := by
  unfold Solves
  rw [List.zip_map']
  simp

/-- The linear program of 132-137 has a solution iff there is a relation. -/
theorem boshernitzanSpace_spec (H : LawfulLengths O c ε) {L : PPL} (hL : L.Lawful) {E : IET T} {s : σ}
    (h : H.Ok E s) (hd : d ≠ 0) :
    ∃ relations S b, E.boshernitzanEquations O s = .ok relations ∧
      Subspace.ofEquations relations (List.replicate relations.length 0) = .ok S ∧
      S.hasNonZeroNonNegativeVector L = .ok b ∧ (b = true ↔ PosRelation c (H.abs E s)) := by
  rw [boshernitzanEquations_spec H h]
  obtain ⟨S, g1, g2, g3, g4, g5, g6, g7⟩ := ofEquations_spec
    ((List.range d).map (fun i => E.top.map (fun a => coefAt c i ((H.abs E s).transl a))))
    (List.replicate d 0) (by simp)
  have hhom : S.homogeneous = true := g3.mpr (by simp +contextual)
  have hdim : S.dim = E.top.length := by
    rw [g2]
    apply foldl_max_const
    · simp +contextual
    · simpa using hd
    · omega
  obtain ⟨b, hb, hb'⟩ := hasNonZeroNonNegativeVectorMIP_iff hL S hhom (g5 hhom)
  refine ⟨_, S, b, rfl, by simpa using g1, hb, ?_⟩
  rw [hb']
  unfold Subspace.HasNZNN PosRelation
  rw [hdim]
  apply exists_congr
  intro x
  have hrep : List.replicate d (0 : ℚ) = (List.range d).map (fun _ => 0) := by simp
  rw [g7, hrep, solves_equations]
  simp only [LawfulLengths.abs]
  tauto

theorem boshernitzanNoPeriodicTrajectory_spec (H : LawfulLengths O c ε) {L : PPL} (hL : L.Lawful) {E : IET T} {s : σ}
    (h : H.Ok E s) (hc : H.CacheOk E s) :
    ∃ b, E.boshernitzanNoPeriodicTrajectory L O s = .ok (b, { E with safCache := some (safList c (H.unswapped E s)) }) ∧
      (b = true ↔ (¬ ∀ x ∈ safList c (H.abs E s), x = 0) ∧ 1 < E.top.length ∧ ¬ PosRelation c (H.abs E s)) := by
  unfold IET.boshernitzanNoPeriodicTrajectory
  rw [saf0_spec H h hc]
  simp only [bind, Except.bind, pure, Except.pure, decide_eq_true_eq]
  by_cases h0 : ∀ x ∈ safList c (H.abs E s), x = 0
  · exact ⟨false, by rw [if_pos h0], by simp, fun h' => absurd h0 h'.1⟩
  · rw [if_neg h0]
    by_cases h1 : E.top.length ≤ 1
    · refine ⟨false, if_pos h1, by simp; intro _ _ _ h'; omega⟩
    · have hd : d ≠ 0 := by
        rintro rfl
        exact h0 (by simp [safList])
      have hE' : H.Ok { E with safCache := some (safList c (H.unswapped E s)) } s := h.congr rfl rfl
      rw [if_neg (by simpa only [IET.size] using h1)]
      obtain ⟨relations, S, b, q1, q2, q3, q4⟩ := boshernitzanSpace_spec H hL hE' hd
      simp only [q1, q2, q3]
      refine ⟨!b, rfl, ?_⟩
      have habs : H.abs { E with safCache := some (safList c (H.unswapped E s)) } s = H.abs E s := rfl
      rw [habs] at q4
      rw [Bool.not_eq_true', ← Bool.not_eq_true, q4]
      constructor
      · intro hr; exact ⟨h0, by omega, hr⟩
      · intro hr; exact hr.2.2

/-! ### Saddle connections -/

theorem nextLabel_spec {t t' : Label} : ∀ {l₁ l₂ : List Label}, t ∉ l₁ →
    IET.nextLabel t (l₁ ++ t :: t' :: l₂) = .ok (some t')
  | [], l₂, _ => by simp [IET.nextLabel]
  | x :: l₁, l₂, h => by
    simp only [List.mem_cons, not_or] at h
    simp [IET.nextLabel, Ne.symm h.1, nextLabel_spec h.2]

theorem nextLabel_last {t : Label} : ∀ {l₁ : List Label}, t ∉ l₁ → IET.nextLabel t (l₁ ++ [t]) = .ok none
  | [], _ => by simp [IET.nextLabel]
  | x :: l₁, h => by
    simp only [List.mem_cons, not_or] at h
    simp [IET.nextLabel, Ne.symm h.1, nextLabel_last h.2]

theorem off_next (len : Label → T) {t t' : Label} {l₁ l₂ : List Label} (hn : (l₁ ++ t :: t' :: l₂).Nodup) :
    off len (l₁ ++ t :: t' :: l₂) t' = off len (l₁ ++ t :: t' :: l₂) t + len t := by
  rw [List.nodup_append] at hn
  obtain ⟨_, h2, h3⟩ := hn
  have ht : t ∉ l₁ := fun h => h3 t h t (by simp) rfl
  have ht' : t' ∉ l₁ := fun h => h3 t' h t' (by simp) rfl
  have hne : t ≠ t' := by
    intro e; rw [List.nodup_cons] at h2; exact h2.1 (by simp [e])
  rw [off_append_right _ ht, off_append_right _ ht']
  simp [off, hne]

/-- The test for a single value `δ`, given its coefficients. -/
theorem saddleTest_spec (H : LawfulLengths O c ε) {L : PPL} (hL : L.Lawful) {E : IET T} {s : σ} (h : H.Ok E s) (δ : T) :
    ∃ r, (if (List.ofFn (c δ)).all (fun t => t = 0) then return false
        else do
          let space ← Subspace.ofEquations (← E.boshernitzanEquations O s) (List.ofFn (c δ))
          return !(space.hasNonNegativeVector L)) = (.ok r : M Bool) ∧
      (r = true ↔ ¬ (c δ = 0) ∧ ¬ ∃ x : List ℚ, x.length = E.top.length ∧ (∀ v ∈ x, 0 ≤ v) ∧
          ∀ i < d, dot (E.top.map (fun a => coefAt c i ((H.abs E s).transl a))) x = coefAt c i δ) := by
  simp only [bind, Except.bind, pure, Except.pure, boshernitzanEquations_spec H h]
  by_cases h0 : c δ = 0
  · refine ⟨false, ?_, by simp [h0]⟩
    rw [if_pos]
    rw [h0]
    simp [List.all_eq_true]
  · have hd : d ≠ 0 := by
      rintro rfl
      exact h0 (Subsingleton.elim _ _)
    have h0' : ¬ ((List.ofFn (c δ)).all (fun t => decide (t = 0)) = true) := by
      intro hall
      apply h0
      rw [List.all_eq_true] at hall
      funext i
      have := hall (c δ i) (by simp [List.mem_ofFn])
      simpa using this
    rw [if_neg h0']
    have hval : List.ofFn (c δ) = (List.range d).map (fun i => coefAt c i δ) := by
      apply List.ext_getElem
      · simp
      · intro i h1 h2
        simp at h1
        simp [coefAt, h1]
    obtain ⟨S, g1, g2, g3, g4, g5, g6, g7⟩ := ofEquations_spec
      ((List.range d).map (fun i => E.top.map (fun a => coefAt c i ((H.abs E s).transl a))))
      (List.ofFn (c δ)) (by simp)
    have hdim : S.dim = E.top.length := by
      rw [g2]
      apply foldl_max_const
      · simp +contextual
      · simpa using hd
      · omega
    rw [g1]
    refine ⟨_, rfl, ?_⟩
    rw [Bool.not_eq_true', ← Bool.not_eq_true, hasNonNegativeVector_iff hL, hdim]
    rw [hval] at g7
    simp only [g7, solves_equations]
    constructor
    · rintro h1
      refine ⟨h0, ?_⟩
      rintro ⟨x, x1, x2, x3⟩
      exact h1 ⟨x, x1, x3, x2⟩
    · rintro ⟨_, h1⟩ ⟨x, x1, x2, x3⟩
      exact h1 ⟨x, x1, x3, x2⟩

theorem ofFn_neg (x y : T) : (List.ofFn (c (x - y))).map (fun c => -c) = List.ofFn (c (y - x)) := by
  rw [List.map_ofFn]
  congr 1
  funext i
  have : c (x - y) = - c (y - x) := by rw [← map_neg, neg_sub]
  rw [Function.comp_apply, this, Pi.neg_apply, neg_neg]

/-- The test for a single pair of end points. `t'` and `b'` are the labels after `t` and `b`. -/
theorem boshernitzanNoSaddleConnection₂_spec (H : LawfulLengths O c ε) {L : PPL} (hL : L.Lawful) {E : IET T} {s : σ}
    (h : H.Ok E s) {t b t' b' : Label} {k₁ k₂ l₁ l₂ : List Label} (ht : E.top = k₁ ++ t :: t' :: k₂)
    (hb : E.bottom = l₁ ++ b :: b' :: l₂) :
    ∃ r, E.boshernitzanNoSaddleConnection₂ L O t b s = .ok r ∧
      (r = true ↔ ¬ (c (off (H.len s) E.top t' - off (H.len s) E.bottom b') = 0) ∧
        ¬ ∃ x : List ℚ, x.length = E.top.length ∧ (∀ v ∈ x, 0 ≤ v) ∧
          ∀ i < d, dot (E.top.map (fun a => coefAt c i ((H.abs E s).transl a))) x =
            coefAt c i (off (H.len s) E.top t' - off (H.len s) E.bottom b')) := by
  have hv := h.valid
  have hn : E.top.Nodup := hv.nodup
  have hnb : E.bottom.Nodup := hv.nodup_bottom
  have ht1 : t ∉ k₁ := by
    rw [ht, List.nodup_append] at hn
    exact fun h => hn.2.2 t h t (by simp) rfl
  have hb1 : b ∉ l₁ := by
    rw [hb, List.nodup_append] at hnb
    exact fun h => hnb.2.2 b h b (by simp) rfl
  obtain ⟨r, h1, h2⟩ := saddleTest_spec H hL h (off (H.len s) E.top t' - off (H.len s) E.bottom b')
  refine ⟨r, Eq.trans ?_ h1, h2⟩
  have e1 : IET.nextLabel t E.top = .ok (some t') := by rw [ht]; exact nextLabel_spec ht1
  have e2 : IET.nextLabel b E.bottom = .ok (some b') := by rw [hb]; exact nextLabel_spec hb1
  have e3 : E.boshernitzanSaddleConnectionValues O t b s = .ok (List.ofFn (c (off (H.len s) E.top t' - off (H.len s) E.bottom b'))) := by
    unfold IET.boshernitzanSaddleConnectionValues
    simp only [e1, e2, labelToCoefficients_spec H h, translation_spec H h, bind, Except.bind, pure, Except.pure]
    rw [ofFn_neg]
  unfold IET.boshernitzanNoSaddleConnection₂
  rw [e3]
  rfl

theorem allM_spec {α : Type} (f : α → M Bool) (g : α → Bool) : ∀ l : List α, (∀ x ∈ l, f x = .ok (g x)) →
    IET.allM f l = .ok (l.all g)
  | [], _ => rfl
  | x :: l, h => by
    rw [IET.allM, h x (by simp)]
    simp only [bind, Except.bind, pure, Except.pure, List.all_cons]
    cases g x
    · simp
    · simp [allM_spec f g l (fun y hy => h y (by simp [hy]))]

/-- A label that is not last has a successor. -/
theorem exists_next {l : List Label} {t : Label} (h : t ∈ l.reverse.tail) : ∃ k₁ k₂ t', l = k₁ ++ t :: t' :: k₂ := by
  cases hr : l.reverse with
  | nil => rw [hr] at h; simp at h
  | cons x r =>
    rw [hr] at h
    simp only [List.tail_cons] at h
    obtain ⟨p, q, rfl⟩ := List.append_of_mem h
    have hl : l = q.reverse ++ t :: (p.reverse ++ [x]) := by
      have := congrArg List.reverse hr
      simpa using this
    cases hp : p.reverse with
    | nil => rw [hp] at hl; exact ⟨q.reverse, [], x, by simpa using hl⟩
    | cons y ys => rw [hp] at hl; exact ⟨q.reverse, ys ++ [x], y, by simpa using hl⟩

end model

/-! ### Orbits and relations -/

section orbits

variable {T P : Type} [CommRing T] [LinearOrder T] [IsStrictOrderedRing T] [CommRing P] [LinearOrder P]
  [IsStrictOrderedRing P]

/-- The multiplicities of labels in a list. -/
def counts (top L : List Label) : List ℚ := top.map (fun a => (L.count a : ℚ))

theorem dot_map_map {α : Type} (l : List α) (f g : α → ℚ) : dot (l.map f) (l.map g) = (l.map (fun a => f a * g a)).sum := by
  induction l with
  | nil => simp
  | cons a l ih => simp [ih]

theorem dot_counts {top : List Label} (hn : top.Nodup) (f : Label → ℚ) : ∀ L : List Label, (∀ a ∈ L, a ∈ top) →
    dot (top.map f) (counts top L) = (L.map f).sum := by
  intro L
  induction L with
  | nil => intro _; rw [counts, dot_map_map]; simp
  | cons b L ih =>
    intro h
    have ih' := ih (fun a ha => h a (by simp [ha]))
    rw [counts, dot_map_map] at ih' ⊢
    rw [List.map_cons, List.sum_cons, ← ih']
    have hb := h b (by simp)
    have key : ∀ l : List Label, l.Nodup → (l.map (fun a => f a * ((b :: L).count a : ℚ))).sum =
        (if b ∈ l then f b else 0) + (l.map (fun a => f a * (L.count a : ℚ))).sum := by
      intro l
      induction l with
      | nil => simp
      | cons a l ihl =>
        intro hnd
        rw [List.nodup_cons] at hnd
        rw [List.map_cons, List.sum_cons, List.map_cons, List.sum_cons, ihl hnd.2]
        by_cases hab : a = b
        · subst hab
          simp only [List.count_cons_self, List.mem_cons_self, if_true, if_neg hnd.1]
          push_cast; ring
        · have h1 : List.count a (b :: L) = List.count a L := List.count_cons_of_ne (fun h => hab h.symm)
          have h2 : (b ∈ a :: l) ↔ b ∈ l := by simp [Ne.symm hab]
          rw [h1]; simp only [h2]; ring
    rw [key top hn, if_pos hb]

/-- Along an orbit, the points change by a sum of translations. -/
theorem transGen_translations {E : AIET P} {x y : P} (h : Relation.TransGen E.Maps x y) :
    ∃ L : List Label, L ≠ [] ∧ (∀ a ∈ L, a ∈ E.top) ∧ y = x + (L.map E.transl).sum := by
  induction h with
  | single h =>
    obtain ⟨a, ha, h1, h2, rfl⟩ := h
    exact ⟨[a], by simp, by simp [ha], by simp [AIET.transl]; ring⟩
  | tail _ h ih =>
    obtain ⟨L, h1, h2, rfl⟩ := ih
    obtain ⟨a, ha, h3, h4, rfl⟩ := h
    refine ⟨a :: L, by simp, by simp [ha]; exact h2, ?_⟩
    simp [AIET.transl]; ring

theorem iter_translations {E : AIET P} : ∀ (n : ℕ) {x y : P}, Iter E.Maps n x y →
    ∃ L : List Label, (∀ a ∈ L, a ∈ E.top) ∧ y = x + (L.map E.transl).sum
  | 0, x, y, h => ⟨[], by simp, by simp [Iter] at h; simp [h]⟩
  | n + 1, x, y, ⟨z, hz, h⟩ => by
    obtain ⟨L, h2, rfl⟩ := iter_translations n h
    obtain ⟨a, ha, h3, h4, rfl⟩ := hz
    refine ⟨a :: L, by simp [ha]; exact h2, ?_⟩
    simp [AIET.transl]; ring

theorem sum_map_transl (ι : T →+ P) (E : AIET T) (L : List Label) :
    (L.map (E.map ι).transl).sum = ι (L.map E.transl).sum := by
  induction L with
  | nil => simp
  | cons a L ih => simp [ih, AIET.map_transl]

theorem sum_map_hom {A : Type} [AddCommMonoid A] (φ : T →+ A) (f : Label → T) (L : List Label) :
    φ (L.map f).sum = (L.map (fun a => φ (f a))).sum := by
  induction L with
  | nil => simp
  | cons a L ih => simp [ih]

theorem counts_nonneg (top L : List Label) : ∀ v ∈ counts top L, 0 ≤ v := by
  intro v hv
  simp only [counts, List.mem_map] at hv
  obtain ⟨a, _, rfl⟩ := hv
  positivity

theorem counts_nonzero {top L : List Label} (h : L ≠ []) (h' : ∀ a ∈ L, a ∈ top) : ∃ v ∈ counts top L, v ≠ 0 := by
  cases L with
  | nil => exact absurd rfl h
  | cons b L =>
    refine ⟨((b :: L).count b : ℚ), List.mem_map.mpr ⟨b, h' b (by simp), rfl⟩, ?_⟩
    rw [List.count_cons_self]
    exact_mod_cast Nat.succ_ne_zero (L.count b)

/-- A periodic point gives a relation between the translations. -/
theorem relation_of_periodic {d : ℕ} (c : T →+ (Fin d → ℚ)) {E : AIET T} (hE : E.Valid) {ι : T →+ P} (hι : StrictMono ι)
    {x : P} (h : Periodic (E.map ι).Maps x) : PosRelation c E := by
  obtain ⟨L, h1, h2, h3⟩ := transGen_translations h
  rw [sum_map_transl] at h3
  have h4 : ι (L.map E.transl).sum = 0 := by linarith
  have h5 : (L.map E.transl).sum = 0 := hι.injective (by rw [h4, map_zero])
  refine ⟨counts E.top L, by simp [counts], counts_nonneg _ _, counts_nonzero h1 h2, ?_⟩
  intro i _
  rw [dot_counts hE.nodup _ L h2, ← sum_map_hom, h5, map_zero]

/-! ### Gordan's alternative for translations -/

theorem posComb_list {d : ℕ} (vs : List (Fin d → ℚ)) {w : Fin d → ℚ} (h : PosComb vs w) :
    ∃ x : List ℚ, x.length = vs.length ∧ (∀ v ∈ x, 0 ≤ v) ∧ (∃ v ∈ x, v ≠ 0) ∧
      ∀ i, dot (vs.map (fun v => v i)) x = w i := by
  induction h with
  | @base v hv =>
    obtain ⟨j, hj, rfl⟩ := List.mem_iff_getElem.mp hv
    refine ⟨unitVec vs.length j, by simp [unitVec], ?_, ⟨1, ?_, by simp⟩, ?_⟩
    · intro v hv
      simp only [unitVec, List.mem_map] at hv
      obtain ⟨k, _, rfl⟩ := hv
      split <;> simp
    · simp only [unitVec, List.mem_map, List.mem_range]
      exact ⟨j, hj, by simp⟩
    · intro i
      rw [dot_comm, dot_unitVec, if_pos hj]
      simp [List.getD_eq_getElem?_getD, hj]
  | add _ _ ih1 ih2 =>
    obtain ⟨x, x1, x2, ⟨v, x3, x3'⟩, x4⟩ := ih1
    obtain ⟨y, y1, y2, _, y4⟩ := ih2
    have hxy : x.length = y.length := by rw [x1, y1]
    refine ⟨vadd x y, by simp [vadd, x1, y1], ?_, ?_, ?_⟩
    · intro z hz
      simp only [vadd, List.mem_iff_getElem, List.length_zipWith, List.getElem_zipWith] at hz
      obtain ⟨i, hi, rfl⟩ := hz
      exact add_nonneg (x2 _ (List.getElem_mem _)) (y2 _ (List.getElem_mem _))
    · obtain ⟨i, hi, rfl⟩ := List.mem_iff_getElem.mp x3
      have hi' : i < y.length := hxy ▸ hi
      refine ⟨x[i] + y[i], ?_, ?_⟩
      · simp only [vadd, List.mem_iff_getElem, List.length_zipWith, List.getElem_zipWith]
        exact ⟨i, by omega, rfl⟩
      · have h1 := x2 _ (List.getElem_mem hi)
        have h2 := y2 _ (List.getElem_mem hi')
        intro h3
        apply x3'
        linarith
    · intro i
      rw [dot_vadd _ _ _ hxy, x4, y4]; rfl
  | smul k hk _ ih =>
    obtain ⟨x, x1, x2, ⟨v, x3, x3'⟩, x4⟩ := ih
    refine ⟨smul k x, by simp [Verif.smul, x1], ?_, ⟨k * v, ?_, mul_ne_zero hk.ne' x3'⟩, ?_⟩
    · intro z hz
      simp only [Verif.smul, List.mem_map] at hz
      obtain ⟨w, hw, rfl⟩ := hz
      exact mul_nonneg hk.le (x2 w hw)
    · simp only [Verif.smul, List.mem_map]; exact ⟨v, x3, rfl⟩
    · intro i; rw [dot_smul, x4]; rfl

/-! ### The translations as an antisymmetric form of the lengths -/

/-- `∑_{a ∈ l} f(a) · (sum of g over the labels before a in l)`. -/
def before (f g : Label → ℚ) : List Label → ℚ
  | [] => 0
  | b :: l => g b * (l.map f).sum + before f g l

theorem before_swap (f g : Label → ℚ) : ∀ l : List Label,
    before f g l + before g f l + (l.map (fun a => f a * g a)).sum = (l.map f).sum * (l.map g).sum
  | [] => by simp [before]
  | b :: l => by
    have := before_swap f g l
    simp only [before, List.map_cons, List.sum_cons]
    linear_combination this

theorem before_eq (f : Label → ℚ) (φ : T →+ ℚ) (len : Label → T) : ∀ l : List Label, l.Nodup →
    (l.map (fun a => f a * φ (off len l a))).sum = before f (fun a => φ (len a)) l
  | [], _ => by simp [before]
  | b :: l, h => by
    rw [List.nodup_cons] at h
    have ih := before_eq f φ len l h.2
    simp only [before, List.map_cons, List.sum_cons, off_cons_self, map_zero, mul_zero, zero_add]
    rw [← ih]
    have : l.map (fun a => f a * φ (off len (b :: l) a)) = l.map (fun a => f a * φ (len b) + f a * φ (off len l a)) := by
      apply List.map_congr_left
      intro a ha
      have hba : b ≠ a := by rintro rfl; exact h.1 ha
      rw [off_cons_ne _ hba, map_add]; ring
    rw [this, List.sum_map_add, List.sum_map_mul_right]; ring

theorem sum_map_sub' {α : Type} (l : List α) (f g : α → ℚ) :
    (l.map (fun a => f a - g a)).sum = (l.map f).sum - (l.map g).sum := by
  induction l with
  | nil => simp
  | cons a l ih => simp only [List.map_cons, List.sum_cons, ih]; ring

/-- `∑ φ(λₐ) ψ(τₐ) = - ∑ ψ(λₐ) φ(τₐ)` -/
theorem transl_antisymm (φ ψ : T →+ ℚ) {E : AIET T} (hE : E.Valid) :
    (E.top.map (fun a => φ (E.len a) * ψ (E.transl a))).sum = - (E.top.map (fun a => ψ (E.len a) * φ (E.transl a))).sum := by
  have key : ∀ φ ψ : T →+ ℚ, (E.top.map (fun a => φ (E.len a) * ψ (E.transl a))).sum =
      before (fun a => φ (E.len a)) (fun a => ψ (E.len a)) E.bottom - before (fun a => φ (E.len a)) (fun a => ψ (E.len a)) E.top := by
    intro φ ψ
    rw [← before_eq _ ψ E.len E.top hE.nodup, ← before_eq _ ψ E.len E.bottom hE.nodup_bottom,
      (hE.perm.map (fun a => φ (E.len a) * ψ (off E.len E.bottom a))).sum_eq, ← sum_map_sub']
    congr 1
    apply List.map_congr_left
    intro a _
    simp only [AIET.transl, map_sub]; ring
  rw [key, key]
  have h1 := before_swap (fun a => φ (E.len a)) (fun a => ψ (E.len a)) E.bottom
  have h2 := before_swap (fun a => φ (E.len a)) (fun a => ψ (E.len a)) E.top
  rw [(hE.perm.map _).sum_eq, (hE.perm.map (fun a => φ (E.len a))).sum_eq, (hE.perm.map (fun a => ψ (E.len a))).sum_eq] at h1
  linarith

theorem saf_eq_two (φ ψ : T →+ ℚ) {E : AIET T} (hE : E.Valid) :
    E.saf φ ψ = 2 * (E.top.map (fun a => φ (E.len a) * ψ (E.transl a))).sum := by
  have := transl_antisymm φ ψ hE
  unfold AIET.saf
  rw [sum_map_sub']; linarith

/-- A positive integer combination of the lengths is positive. -/
theorem exists_pos_int_comb {E : AIET T} (hE : E.Valid) (p : Label → ℚ) (hp : ∀ a ∈ E.top, 0 < p a) :
    ∃ z : T, 0 < z ∧ ∃ N : ℕ, 0 < N ∧ ∀ φ : T →+ ℚ, φ z = N * (E.top.map (fun a => φ (E.len a) * p a)).sum := by
  obtain ⟨N, hN, hz⟩ := exists_int_multiple (E.top.map p)
  have hint : ∀ a ∈ E.top, ∃ z : ℕ, 0 < z ∧ (N : ℚ) * p a = z := by
    intro a ha
    obtain ⟨z, hz'⟩ := hz (N * p a) (by simp only [smul, List.mem_map]; exact ⟨p a, ⟨a, ha, rfl⟩, rfl⟩)
    have hpos : (0 : ℚ) < N * p a := mul_pos (by exact_mod_cast hN) (hp a ha)
    rw [hz'] at hpos
    have : 0 < z := by exact_mod_cast hpos
    refine ⟨z.toNat, by omega, ?_⟩
    rw [hz']
    have h3 : ((z.toNat : ℤ) : ℚ) = (z : ℚ) := by rw [Int.toNat_of_nonneg this.le]
    rw [← h3]; exact Int.cast_natCast _
  have key : ∀ l : List Label, (∀ a ∈ l, a ∈ E.top) → ∃ z : T, (0 ≤ z ∧ (l ≠ [] → 0 < z)) ∧
      ∀ φ : T →+ ℚ, φ z = N * (l.map (fun a => φ (E.len a) * p a)).sum := by
    intro l
    induction l with
    | nil => intro _; exact ⟨0, ⟨le_refl _, fun h => absurd rfl h⟩, by simp⟩
    | cons a l ih =>
      intro hl
      obtain ⟨z, ⟨hz0, _⟩, hz1⟩ := ih (fun a ha => hl a (by simp [ha]))
      obtain ⟨m, hm, hm'⟩ := hint a (hl a (by simp))
      have hpos : 0 < m • E.len a := nsmul_pos (hE.pos a (hl a (by simp))) hm.ne'
      refine ⟨m • E.len a + z, ⟨by linarith, fun _ => by linarith⟩, ?_⟩
      intro φ
      rw [map_add, hz1, map_nsmul, List.map_cons, List.sum_cons, nsmul_eq_mul, ← hm']; ring
  obtain ⟨z, ⟨_, h1⟩, h2⟩ := key E.top (fun a h => h)
  exact ⟨z, h1 hE.ne_nil, N, hN, h2⟩

/-- When the SAF invariant vanishes there is a relation between the translations. -/
theorem relation_of_saf_eq_zero {d : ℕ} {c : T →+ (Fin d → ℚ)} (hc : ∀ x, c x = 0 → x = 0) {E : AIET T} (hE : E.Valid)
    (h : ∀ i j, i < j → j < d → E.saf (coefAt c i) (coefAt c j) = 0) : PosRelation c E := by
  rcases gordan d (E.top.map (fun a => c (E.transl a))) with hg | ⟨y, hy⟩
  · obtain ⟨x, h1, h2, h3, h4⟩ := posComb_list _ hg
    refine ⟨x, by simpa using h1, h2, h3, ?_⟩
    intro i hi
    have := h4 ⟨i, hi⟩
    rw [List.map_map] at this
    simp only [Pi.zero_apply] at this
    rw [← this]
    congr 1
    apply List.map_congr_left
    intro a _
    simp [coefAt, hi]
  · exfalso
    let ψ : T →+ ℚ :=
      { toFun := fun t => ∑ i, y i * c t i
        map_zero' := by simp
        map_add' := fun s t => by simp [mul_add, Finset.sum_add_distrib] }
    have hψ : ∀ a ∈ E.top, 0 < ψ (E.transl a) := fun a ha => hy _ (List.mem_map.mpr ⟨a, ha, rfl⟩)
    obtain ⟨z, hz, N, hN, hφ⟩ := exists_pos_int_comb hE _ hψ
    have hall : ∀ i j, i < d → j < d → (E.top.map (fun a => coefAt c i (E.len a) * coefAt c j (E.transl a))).sum = 0 := by
      intro i j hi hj
      rcases lt_trichotomy i j with hij | rfl | hij
      · have := h i j hij hj
        rw [saf_eq_two _ _ hE] at this; linarith
      · have := transl_antisymm (coefAt c i) (coefAt c i) hE
        linarith
      · have := h j i hij hi
        rw [saf_eq_two _ _ hE, transl_antisymm _ _ hE] at this; linarith
    have hcz : c z = 0 := by
      funext i
      have h1 := hφ (coefAt c i)
      have h2 : coefAt c i z = c z i := by simp [coefAt]
      rw [h2] at h1
      rw [h1, Pi.zero_apply]
      have hsum : ∀ l : List Label, (l.map (fun a => coefAt c i (E.len a) * ψ (E.transl a))).sum =
          ∑ j : Fin d, y j * (l.map (fun a => coefAt c i (E.len a) * coefAt c j (E.transl a))).sum := by
        intro l
        induction l with
        | nil => simp
        | cons a l ih =>
          simp only [List.map_cons, List.sum_cons, ih, mul_add, Finset.sum_add_distrib]
          congr 1
          have h3 : ψ (E.transl a) = ∑ j, y j * c (E.transl a) j := rfl
          rw [h3, Finset.mul_sum]
          apply Finset.sum_congr rfl
          intro j _
          have h4 : coefAt c j (E.transl a) = c (E.transl a) j := by simp [coefAt]
          rw [h4]; ring
      rw [hsum]
      have : ∀ j : Fin d, y j * (E.top.map (fun a => coefAt c i (E.len a) * coefAt c j (E.transl a))).sum = 0 := by
        intro j; rw [hall i j i.2 j.2, mul_zero]
      simp [this]
    exact hz.ne' (hc z hcz)

end orbits

end Verif
