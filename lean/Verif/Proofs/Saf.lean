import Verif.Proofs.Reduce
import Mathlib.Algebra.Group.Hom.Defs
import Mathlib.Algebra.BigOperators.Intervals
import Mathlib.Data.List.OfFn

/-!
# The SAF invariant
-/

namespace Verif

set_option linter.unusedSectionVars false

section spec

variable {P : Type} [CommRing P] [LinearOrder P] [IsStrictOrderedRing P] (φ ψ : P →+ ℚ)

/-- One summand of the SAF invariant. -/
def wsum (len τ : Label → P) (l : List Label) : ℚ :=
  (l.map (fun a => φ (len a) * ψ (τ a) - ψ (len a) * φ (τ a))).sum

theorem saf_eq_wsum (E : AIET P) : E.saf φ ψ = wsum φ ψ E.len E.transl E.top := rfl

@[simp] theorem wsum_nil (len τ : Label → P) : wsum φ ψ len τ [] = 0 := rfl

@[simp] theorem wsum_cons (len τ : Label → P) (a : Label) (l : List Label) :
    wsum φ ψ len τ (a :: l) = (φ (len a) * ψ (τ a) - ψ (len a) * φ (τ a)) + wsum φ ψ len τ l := rfl

theorem wsum_append (len τ : Label → P) (l l' : List Label) :
    wsum φ ψ len τ (l ++ l') = wsum φ ψ len τ l + wsum φ ψ len τ l' := by
  simp [wsum]

theorem wsum_perm (len τ : Label → P) {l l' : List Label} (h : l.Perm l') :
    wsum φ ψ len τ l = wsum φ ψ len τ l' := (h.map _).sum_eq

theorem wsum_congr {len len' τ τ' : Label → P} {l : List Label} (h : ∀ a ∈ l, len a = len' a)
    (h' : ∀ a ∈ l, τ a = τ' a) : wsum φ ψ len τ l = wsum φ ψ len' τ' l := by
  unfold wsum
  congr 1
  apply List.map_congr_left
  intro a ha; rw [h a ha, h' a ha]

theorem wsum_neg (len τ : Label → P) (l : List Label) :
    wsum φ ψ len (fun a => - τ a) l = - wsum φ ψ len τ l := by
  induction l with
  | nil => simp
  | cons a l ih => simp only [wsum_cons, ih, map_neg]; ring

theorem saf_inv {E : AIET P} (hE : E.Valid) : E.inv.saf φ ψ = - E.saf φ ψ := by
  rw [saf_eq_wsum, saf_eq_wsum, ← wsum_neg]
  have : E.inv.transl = fun a => - E.transl a := by
    funext a; simp [AIET.transl, AIET.inv]
  rw [this]
  exact wsum_perm _ _ _ _ hE.perm

/-- The translations after an elementary step. -/
theorem RauzyTop.transl {a b : Label} {t l₁ l₂ : List Label} {len : Label → P} (hs : Split a b t l₁ l₂) (x : Label)
    (hx : x ∈ a :: t) :
    (⟨a :: t, l₁ ++ b :: a :: l₂, shorten len a (len b)⟩ : AIET P).transl x =
      (⟨a :: t, b :: (l₁ ++ a :: l₂), len⟩ : AIET P).transl x +
        if x = b then (⟨a :: t, b :: (l₁ ++ a :: l₂), len⟩ : AIET P).transl a else 0 := by
  have c1 := shorten_congr len (len b) hs.a_l₁
  have c2 := shorten_congr len (len b) hs.a_l₂
  have ct := shorten_congr len (len b) hs.a_t
  simp only [AIET.transl]
  by_cases hxa : x = a
  · subst hxa
    rw [if_neg (Ne.symm hs.b_a), hs.off'_a, hs.off_a, sumLen_congr c1, shorten_ne _ _ hs.b_a]
    simp; ring
  · have hxt : x ∈ t := by simpa [hxa] using hx
    rw [off_cons_ne _ (Ne.symm hxa), off_cons_ne _ (Ne.symm hxa), shorten_eq, off_congr ct]
    by_cases hxb : x = b
    · subst hxb
      rw [if_pos rfl, hs.off'_b, hs.off_a, sumLen_congr c1]
      simp; ring
    · rw [if_neg hxb]
      rcases hs.cases hxt hxb with h1 | ⟨h1, h2⟩
      · rw [hs.off'_l₁ _ h1, hs.off_l₁ _ h1, off_congr c1]; ring
      · rw [hs.off'_l₂ _ h1 h2, hs.off_l₂ _ h1 h2, off_congr c2, sumLen_congr c1, shorten_ne _ _ hs.b_a, shorten_eq]
        ring

theorem RauzyTop.saf_eq {E E' : AIET P} (hE : E.Valid) (h : RauzyTop E E') : E'.saf φ ψ = E.saf φ ψ := by
  obtain ⟨a, b, t, l₁, l₂, len, hlt⟩ := h
  have hs := hE.split
  have ht := fun x hx => RauzyTop.transl (len := len) hs x hx
  rw [saf_eq_wsum, saf_eq_wsum]
  generalize (⟨a :: t, l₁ ++ b :: a :: l₂, shorten len a (len b)⟩ : AIET P).transl = τ' at ht ⊢
  generalize (⟨a :: t, b :: (l₁ ++ a :: l₂), len⟩ : AIET P).transl = τ at ht ⊢
  have hpt : (a :: t).Perm (a :: b :: (l₁ ++ l₂)) := (hs.perm.symm).cons a
  simp only
  rw [wsum_perm _ _ _ _ hpt, wsum_perm _ _ _ _ hpt]
  simp only [wsum_cons]
  have h1 : wsum φ ψ (shorten len a (len b)) τ' (l₁ ++ l₂) = wsum φ ψ len τ (l₁ ++ l₂) := by
    apply wsum_congr
    · apply shorten_congr; simp [hs.a_l₁, hs.a_l₂]
    · intro x hx
      rw [ht x (List.mem_cons_of_mem _ (hs.perm.mem_iff.mp (List.mem_cons_of_mem _ hx))), if_neg, add_zero]
      rintro rfl; simp [hs.b_l₁, hs.b_l₂] at hx
  rw [h1, ht a (by simp), ht b (List.mem_cons_of_mem _ hs.b_t), if_pos rfl, if_neg (Ne.symm hs.b_a),
    shorten_eq, shorten_ne _ _ hs.b_a]
  simp only [map_add, map_sub, map_zero]
  ring

theorem MergeTop.transl {a b : Label} {t l₁ l₂ : List Label} {len : Label → P} (hs : Split a b t l₁ l₂)
    (heq : len b = len a) (x : Label) (hxt : x ∈ t) :
    (⟨t, l₁ ++ b :: l₂, len⟩ : AIET P).transl x =
      (⟨a :: t, b :: (l₁ ++ a :: l₂), len⟩ : AIET P).transl x +
        if x = b then (⟨a :: t, b :: (l₁ ++ a :: l₂), len⟩ : AIET P).transl a else 0 := by
  simp only [AIET.transl]
  rw [hs.off_t len hxt]
  by_cases hxb : x = b
  · subst hxb
    rw [if_pos rfl, hs.off''_b, hs.off_a]
    simp only [off_cons_self]; rw [heq]; ring
  · rw [if_neg hxb]
    rcases hs.cases hxt hxb with h1 | ⟨h1, h2⟩
    · rw [hs.off''_l₁ _ h1, hs.off_l₁ _ h1, heq]; ring
    · rw [hs.off''_l₂ _ h1 h2, hs.off_l₂ _ h1 h2, heq]; ring

theorem MergeTop.saf_eq {E E' : AIET P} (hE : E.Valid) (h : MergeTop E E') : E'.saf φ ψ = E.saf φ ψ := by
  obtain ⟨a, b, t, l₁, l₂, len, heq⟩ := h
  have hs := hE.split
  have ht := fun x hx => MergeTop.transl (len := len) hs heq x hx
  rw [saf_eq_wsum, saf_eq_wsum]
  generalize (⟨t, l₁ ++ b :: l₂, len⟩ : AIET P).transl = τ' at ht ⊢
  generalize (⟨a :: t, b :: (l₁ ++ a :: l₂), len⟩ : AIET P).transl = τ at ht ⊢
  simp only [wsum_cons]
  rw [wsum_perm _ _ _ _ hs.perm.symm, wsum_perm _ _ _ _ hs.perm.symm]
  simp only [wsum_cons]
  have h1 : wsum φ ψ len τ' (l₁ ++ l₂) = wsum φ ψ len τ (l₁ ++ l₂) := by
    apply wsum_congr
    · intros; rfl
    · intro x hx
      rw [ht x (hs.perm.mem_iff.mp (List.mem_cons_of_mem _ hx)), if_neg, add_zero]
      rintro rfl; simp [hs.b_l₁, hs.b_l₂] at hx
  rw [h1, ht b hs.b_t, if_pos rfl, heq]
  simp only [map_add]
  ring

theorem RauzyRun.saf_eq {E E' : AIET P} (hE : E.Valid) (h : RauzyRun E E') : E'.saf φ ψ = E.saf φ ψ := by
  induction h with
  | refl => rfl
  | tail hr h ih => rw [h.saf_eq φ ψ (RauzyRun.valid hE hr), ih]

/-! ### Cutting a reducible IET -/

theorem IsCut.facts {E l r : AIET P} {k : ℕ} (hE : E.Valid) (h : IsCut E l r k) :
    E.top = l.top ++ r.top ∧ E.bottom = l.bottom ++ r.bottom ∧ l.len = E.len ∧ r.len = E.len ∧
      (∀ a ∈ l.top, a ∉ r.top) ∧ l.bottom.Perm l.top ∧ r.bottom.Perm r.top := by
  have hr := h.valid_right hE
  obtain ⟨h1, h2, rfl, rfl, h3, h4⟩ := h
  refine ⟨by simp, by simp, rfl, rfl, ?_, h3, hr.perm⟩
  have := hE.nodup
  rw [← List.take_append_drop k E.top, List.nodup_append] at this
  exact fun a ha hb => this.2.2 a ha a hb rfl

theorem IsCut.offs {E l r : AIET P} {k : ℕ} (hE : E.Valid) (h : IsCut E l r k) :
    (∀ a ∈ l.top, off E.len E.top a = off l.len l.top a ∧ off E.len E.bottom a = off l.len l.bottom a) ∧
    (∀ a ∈ r.top, off E.len E.top a = l.total + off r.len r.top a ∧
      off E.len E.bottom a = l.total + off r.len r.bottom a) := by
  obtain ⟨h1, h2, h3, h4, h5, h6, h7⟩ := h.facts hE
  constructor
  · intro a ha
    rw [h1, h2, h3, off_append_left _ ha, off_append_left _ (h6.mem_iff.mpr ha)]
    exact ⟨rfl, rfl⟩
  · intro a ha
    have hl : a ∉ l.top := fun hm => h5 a hm ha
    rw [h1, h2, h4, off_append_right _ hl, off_append_right _ (fun hm => hl (h6.mem_iff.mp hm)), sumLen_perm _ h6,
      AIET.total, h3]
    exact ⟨rfl, rfl⟩

theorem IsCut.saf_eq {E l r : AIET P} {k : ℕ} (hE : E.Valid) (h : IsCut E l r k) :
    E.saf φ ψ = l.saf φ ψ + r.saf φ ψ := by
  obtain ⟨h1, h2, h3, h4, h5, h6, h7⟩ := h.facts hE
  obtain ⟨o1, o2⟩ := h.offs hE
  simp only [saf_eq_wsum]
  rw [h1, wsum_append]
  congr 1
  · apply wsum_congr
    · intro a _; rw [h3]
    · intro a ha; simp [AIET.transl, o1 a ha]
  · apply wsum_congr
    · intro a _; rw [h4]
    · intro a ha; simp [AIET.transl, o2 a ha]

theorem IsCut.total_eq {E l r : AIET P} {k : ℕ} (hE : E.Valid) (h : IsCut E l r k) :
    E.total = l.total + r.total := by
  obtain ⟨h1, h2, h3, h4, _⟩ := h.facts hE
  simp only [AIET.total]; rw [h1, sumLen_append, h3, h4]

theorem IsCut.maps_left {E l r : AIET P} {k : ℕ} (hE : E.Valid) (h : IsCut E l r k) {x y : P} (hx : x < l.total) :
    E.Maps x y ↔ l.Maps x y := by
  obtain ⟨h1, h2, h3, h4, h5, h6, h7⟩ := h.facts hE
  obtain ⟨o1, o2⟩ := h.offs hE
  constructor
  · rintro ⟨a, ha, g1, g2, g3⟩
    rw [h1, List.mem_append] at ha
    rcases ha with ha | ha
    · refine ⟨a, ha, ?_⟩
      rw [(o1 a ha).1] at g1 g2 g3; rw [(o1 a ha).2] at g3; rw [h3] at *
      exact ⟨g1, g2, g3⟩
    · rw [(o2 a ha).1] at g1
      have := off_nonneg (h.valid_right hE).pos a
      exact absurd hx (not_lt.mpr (by linarith))
  · rintro ⟨a, ha, g1, g2, g3⟩
    refine ⟨a, by rw [h1]; simp [ha], ?_⟩
    rw [(o1 a ha).1, (o1 a ha).2, ← h3]
    exact ⟨g1, g2, g3⟩

theorem IsCut.maps_right {E l r : AIET P} {k : ℕ} (hE : E.Valid) (h : IsCut E l r k) {x y : P} (hx : 0 ≤ x) :
    E.Maps (x + l.total) (y + l.total) ↔ r.Maps x y := by
  obtain ⟨h1, h2, h3, h4, h5, h6, h7⟩ := h.facts hE
  obtain ⟨o1, o2⟩ := h.offs hE
  constructor
  · rintro ⟨a, ha, g1, g2, g3⟩
    rw [h1, List.mem_append] at ha
    rcases ha with ha | ha
    · rw [(o1 a ha).1] at g2
      have := off_add_le (h.valid_left hE).pos ha
      rw [h3] at g2
      simp only [AIET.total, h3] at this g2
      exact absurd g2 (not_lt.mpr (by linarith))
    · refine ⟨a, ha, ?_⟩
      rw [(o2 a ha).1] at g1 g2 g3; rw [(o2 a ha).2] at g3; rw [h4] at *
      exact ⟨by linarith, by linarith, by linarith⟩
  · rintro ⟨a, ha, g1, g2, g3⟩
    refine ⟨a, by rw [h1]; simp [ha], ?_⟩
    rw [(o2 a ha).1, (o2 a ha).2, ← h4]
    exact ⟨by linarith, by linarith, by linarith⟩

end spec

/-! ### The code -/

section model

variable {σ T ε : Type} [CommRing T] [LinearOrder T] [IsStrictOrderedRing T] {O : LengthsOps σ T}
  {d : ℕ} {c : T →+ (Fin d → ℚ)}

/-- The `i`-th coefficient of a length, zero if `i` is not less than the dimension. -/
def coefAt (c : T →+ (Fin d → ℚ)) (i : ℕ) : T →+ ℚ where
  toFun x := if h : i < d then c x ⟨i, h⟩ else 0
  map_zero' := by by_cases h : i < d <;> simp [h]
  map_add' x y := by by_cases h : i < d <;> simp [h]

theorem getD_ofFn (v : Fin d → ℚ) (i : ℕ) : (List.ofFn v).getD i 0 = if h : i < d then v ⟨i, h⟩ else 0 := by
  rw [List.getD_eq_getElem?_getD, List.getElem?_ofFn]
  by_cases h : i < d <;> simp [h]

theorem addVec_ofFn (v w : Fin d → ℚ) : IET.addVec (List.ofFn v) (List.ofFn w) = .ok (List.ofFn (v + w)) := by
  simp only [IET.addVec, List.length_ofFn, if_true]
  congr 1
  apply List.ext_getElem <;> simp

theorem subVec_ofFn (v w : Fin d → ℚ) : IET.subVec (List.ofFn v) (List.ofFn w) = .ok (List.ofFn (v - w)) := by
  simp only [IET.subVec, List.length_ofFn, if_true]
  congr 1
  apply List.ext_getElem <;> simp

theorem replicate_ofFn : List.replicate d (0 : ℚ) = List.ofFn (0 : Fin d → ℚ) := by
  apply List.ext_getElem <;> simp

/-- The map from labels to coefficients. -/
theorem coeffMap_at (f : Label → List ℚ) {l : List Label} {x : Label} (hx : x ∈ l) :
    IET.CoeffMap.at' (l.map (fun x => (x, f x))) x = .ok (f x) := by
  have key : ∀ l : List Label, x ∈ l → (l.map (fun x => (x, f x))).lookup x = some (f x) := by
    intro l
    induction l with
    | nil => intro h; simp at h
    | cons y l ih =>
      intro h
      by_cases hxy : x = y
      · subst hxy; simp [List.lookup]
      · have hb : (x == y) = false := by simpa using hxy
        simp only [List.map_cons, List.lookup, hb]
        exact ih (by simpa [hxy] using h)
  simp only [IET.CoeffMap.at', ← List.map_reverse]
  rw [key l.reverse (by simpa using hx)]

theorem translationLoop_add (len : Label → T) (m : IET.CoeffMap) (stop : Label) :
    ∀ (l : List Label) (v : Fin d → ℚ), (∀ x ∈ l, m.at' x = .ok (List.ofFn (c (len x)))) →
    IET.translationLoop IET.addVec m stop l (List.ofFn v) = .ok (List.ofFn (v + c (off len l stop))) := by
  intro l
  induction l with
  | nil => intro v _; simp [IET.translationLoop, off]
  | cons x l ih =>
    intro v h
    by_cases hx : x = stop
    · subst hx; simp [IET.translationLoop]
    · simp only [IET.translationLoop, hx, if_false, h x (by simp), bind, Except.bind, addVec_ofFn]
      rw [ih _ (fun y hy => h y (by simp [hy])), off_cons_ne _ hx, map_add, add_assoc]

theorem translationLoop_sub (len : Label → T) (m : IET.CoeffMap) (stop : Label) :
    ∀ (l : List Label) (v : Fin d → ℚ), (∀ x ∈ l, m.at' x = .ok (List.ofFn (c (len x)))) →
    IET.translationLoop IET.subVec m stop l (List.ofFn v) = .ok (List.ofFn (v - c (off len l stop))) := by
  intro l
  induction l with
  | nil => intro v _; simp [IET.translationLoop, off]
  | cons x l ih =>
    intro v h
    by_cases hx : x = stop
    · subst hx; simp [IET.translationLoop]
    · simp only [IET.translationLoop, hx, if_false, h x (by simp), bind, Except.bind, subVec_ofFn]
      rw [ih _ (fun y hy => h y (by simp [hy])), off_cons_ne _ hx, map_add, sub_add_eq_sub_sub]

theorem labelToCoefficients_spec (H : LawfulLengths O c ε) {E : IET T} {s : σ} (h : H.Ok E s) :
    E.labelToCoefficients O s = .ok (E.top.map (fun x => (x, List.ofFn (c (H.len s x))))) := by
  simp only [IET.labelToCoefficients, IET.coefficients, H.coefficients_spec s E.top h.inv h.dom, bind, Except.bind,
    pure, Except.pure]
  congr 1
  generalize E.top = l
  induction l with
  | nil => rfl
  | cons x l ih => simp [ih]

theorem translation_spec (H : LawfulLengths O c ε) {E : IET T} {s : σ} (h : H.Ok E s) (t b : Label) :
    E.translation t b (E.top.map (fun x => (x, List.ofFn (c (H.len s x))))) =
      .ok (List.ofFn (c (off (H.len s) E.bottom b - off (H.len s) E.top t))) := by
  have hm : ∀ x ∈ E.top, IET.CoeffMap.at' (E.top.map (fun x => (x, List.ofFn (c (H.len s x))))) x =
      .ok (List.ofFn (c (H.len s x))) := fun x hx => coeffMap_at (fun x => List.ofFn (c (H.len s x))) hx
  have hb : ∀ x ∈ E.bottom, x ∈ E.top := fun x hx => h.valid.perm.mem_iff.mp hx
  cases ht : E.top with
  | nil => exact absurd ht h.valid.ne_nil
  | cons x l =>
    rw [ht] at hm hb
    simp only [IET.translation, List.map_cons]
    rw [List.length_ofFn, replicate_ofFn]
    rw [← List.map_cons (f := fun x => (x, List.ofFn (c (H.len s x))))]
    rw [ht, translationLoop_sub (H.len s) _ t (x :: l) 0 hm]
    simp only [bind, Except.bind]
    rw [translationLoop_add (H.len s) _ b E.bottom _ (fun y hy => hm y (hb y hy))]
    congr 2
    rw [map_sub, zero_sub, neg_add_eq_sub]

theorem translations_spec (H : LawfulLengths O c ε) {E : IET T} {s : σ} (h : H.Ok E s) :
    E.translations O s = .ok (E.top.map (fun x => List.ofFn (c ((H.abs E s).transl x)))) := by
  simp only [IET.translations, labelToCoefficients_spec H h, bind, Except.bind]
  have key : ∀ l : List Label, l.mapM (fun x => E.translation x x (E.top.map (fun x => (x, List.ofFn (c (H.len s x)))))) =
      (.ok (l.map (fun x => List.ofFn (c ((H.abs E s).transl x)))) : M _) := by
    intro l
    induction l with
    | nil => rfl
    | cons x l ih => rw [List.mapM_cons, translation_spec H h, ih]; rfl
  exact key _

theorem pairs_length (d : ℕ) : (IET.pairs d).length = d * (d - 1) / 2 := by
  have h1 : (IET.pairs d).length = ((List.range (d - 1)).map (fun i => d - (i + 1))).sum := by
    simp [IET.pairs, List.length_flatMap]
  have h2 : ∀ n d, n + 1 ≤ d → ((List.range n).map (fun i => d - (i + 1))).sum * 2 + n * (n + 1) = 2 * n * d := by
    intro n
    induction n with
    | zero => intro d _; simp
    | succ n ih =>
      intro d hd
      have := ih d (by omega)
      rw [List.range_succ, List.map_append, List.sum_append, List.map_singleton, List.sum_singleton]
      obtain ⟨e, rfl⟩ : ∃ e, d = e + (n + 1) := ⟨d - (n + 1), by omega⟩
      have h3 : e + (n + 1) - (n + 1) = e := by omega
      rw [h3, add_mul]
      nlinarith
  rw [h1]
  cases d with
  | zero => simp
  | succ n =>
    have := h2 n (n + 1) (le_refl _)
    have h3 : n + 1 - 1 = n := by omega
    rw [h3]
    have h4 : (n + 1) * n = ((List.range n).map (fun i => n + 1 - (i + 1))).sum * 2 := by nlinarith
    rw [h4]; simp

theorem wedge_ofFn (v w : T) : IET.wedge (List.ofFn (c v)) (List.ofFn (c w)) =
    .ok ((IET.pairs d).map (fun p => coefAt c p.1 v * coefAt c p.2 w - coefAt c p.2 v * coefAt c p.1 w)) := by
  simp only [IET.wedge, List.length_ofFn, if_true]
  congr 1
  apply List.map_congr_left
  intro p _
  simp only [getD_ofFn, coefAt, AddMonoidHom.coe_mk, ZeroHom.coe_mk]

theorem addVec_map {α : Type} (l : List α) (f g : α → ℚ) :
    IET.addVec (l.map f) (l.map g) = .ok (l.map (fun x => f x + g x)) := by
  simp only [IET.addVec, List.length_map, if_true]
  congr 1
  apply List.ext_getElem <;> simp

/-- The SAF invariant as a list of coordinates. -/
def safList (c : T →+ (Fin d → ℚ)) (E : AIET T) : List ℚ :=
  if d ≤ 1 then [] else (IET.pairs d).map (fun p => E.saf (coefAt c p.1) (coefAt c p.2))

theorem rawSaf_spec (H : LawfulLengths O c ε) {E : IET T} {s : σ} (h : H.Ok E s) :
    E.rawSaf O s = .ok (safList c (H.abs E s)) := by
  have hco : E.coefficients O s = .ok (E.top.map (fun x => List.ofFn (c (H.len s x)))) :=
    H.coefficients_spec s E.top h.inv h.dom
  have key : ∀ (l : List Label) (F : ℕ × ℕ → ℚ),
      ((l.map (fun x => List.ofFn (c (H.len s x)))).zip (l.map (fun x => List.ofFn (c ((H.abs E s).transl x))))).foldlM
        (fun acc p => do IET.addVec acc (← IET.wedge p.1 p.2)) ((IET.pairs d).map F) =
      (.ok ((IET.pairs d).map (fun p => F p + wsum (coefAt c p.1) (coefAt c p.2) (H.len s) (H.abs E s).transl l)) : M _) := by
    intro l
    induction l with
    | nil => intro F; simp; rfl
    | cons x l ih =>
      intro F
      simp only [List.map_cons, List.zip_cons_cons, List.foldlM_cons, wedge_ofFn, bind, Except.bind, addVec_map]
      have := ih (fun p => F p + (coefAt c p.1 (H.len s x) * coefAt c p.2 ((H.abs E s).transl x) -
        coefAt c p.2 (H.len s x) * coefAt c p.1 ((H.abs E s).transl x)))
      simp only [bind, Except.bind] at this
      rw [this]
      simp only [wsum_cons, add_assoc]
  simp only [IET.rawSaf, hco, bind, Except.bind]
  cases ht : E.top with
  | nil => exact absurd ht h.valid.ne_nil
  | cons x l =>
    simp only [List.map_cons, List.length_ofFn]
    by_cases hd : d ≤ 1
    · simp [hd, safList]; rfl
    · simp only [hd, if_false, translations_spec H h]
      rw [← List.map_cons (f := fun x => List.ofFn (c (H.len s x))), ht]
      have hz : List.replicate (d * (d - 1) / 2) (0 : ℚ) = (IET.pairs d).map (fun _ => 0) := by
        rw [← pairs_length]; simp
      rw [hz]
      have := key (x :: l) (fun _ => 0)
      simp only [bind, Except.bind] at this
      rw [this]
      simp only [safList, hd, if_false, zero_add]
      congr 1
      apply List.map_congr_left
      intro p _
      rw [saf_eq_wsum]
      show _ = wsum _ _ _ _ E.top
      rw [ht]; rfl

end model

end Verif
