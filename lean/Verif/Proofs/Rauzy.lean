import Verif.Proofs.Dyn

/-!
# An elementary Rauzy step (and merging a connection) is a first return map
-/

namespace Verif

set_option linter.unusedSectionVars false

variable {P : Type} [CommRing P] [LinearOrder P] [IsStrictOrderedRing P]

theorem nm {x c : Label} {l : List Label} (hx : x ∉ l) (hc : c ∈ l) : x ≠ c :=
  (ne_of_mem_of_not_mem hc hx).symm

/-- The combinatorial consequences of validity when the lists are decomposed. -/
structure Split (a b : Label) (t l₁ l₂ : List Label) : Prop where
  a_t : a ∉ t
  t_nodup : t.Nodup
  b_a : b ≠ a
  b_t : b ∈ t
  b_l₁ : b ∉ l₁
  b_l₂ : b ∉ l₂
  a_l₁ : a ∉ l₁
  a_l₂ : a ∉ l₂
  l₁_nodup : l₁.Nodup
  l₂_nodup : l₂.Nodup
  disj : ∀ c ∈ l₁, c ∉ l₂
  perm : (b :: (l₁ ++ l₂)).Perm t

theorem AIET.Valid.split {a b : Label} {t l₁ l₂ : List Label} {len : Label → P}
    (h : (⟨a :: t, b :: (l₁ ++ a :: l₂), len⟩ : AIET P).Valid) : Split a b t l₁ l₂ := by
  have h1 := h.nodup
  have h2 := h.nodup_bottom
  have h3 := h.perm
  simp only [List.nodup_cons, List.mem_append, List.mem_cons, List.nodup_append, not_or] at h1 h2
  have hp : (b :: (l₁ ++ l₂)).Perm t := by
    have : (a :: (b :: (l₁ ++ l₂))).Perm (a :: t) := by
      refine List.Perm.trans ?_ h3
      refine (List.Perm.swap _ _ _).trans (List.Perm.cons _ ?_)
      exact List.perm_middle.symm
    exact List.Perm.cons_inv this
  exact {
    a_t := h1.1
    t_nodup := h1.2
    b_a := h2.1.2.1
    b_t := hp.mem_iff.mp (by simp)
    b_l₁ := h2.1.1
    b_l₂ := h2.1.2.2
    a_l₁ := fun hm => (h2.2.2.2 a hm a (by simp)) rfl
    a_l₂ := h2.2.2.1.1
    l₁_nodup := h2.2.1
    l₂_nodup := h2.2.2.1.2
    disj := fun c hc hc' => h2.2.2.2 c hc c (by simp [hc']) rfl
    perm := hp }

theorem Split.cases {a b : Label} {t l₁ l₂ : List Label} (h : Split a b t l₁ l₂) {c : Label} (hc : c ∈ t)
    (hcb : c ≠ b) : c ∈ l₁ ∨ c ∉ l₁ ∧ c ∈ l₂ := by
  have := h.perm.mem_iff.mpr hc
  simp only [List.mem_cons, List.mem_append, hcb, false_or] at this
  rcases this with h' | h'
  · exact .inl h'
  · exact .inr ⟨fun h'' => h.disj c h'' h', h'⟩

section offsets

variable {a b : Label} {t l₁ l₂ : List Label} (len : Label → P) (h : Split a b t l₁ l₂)
include h

/-- Bottom offsets before the step. -/
theorem Split.off_a : off len (b :: (l₁ ++ a :: l₂)) a = len b + sumLen len l₁ := by
  rw [off_cons_ne len h.b_a, off_append_right len h.a_l₁]; simp

theorem Split.off_l₁ {c : Label} (hc : c ∈ l₁) :
    off len (b :: (l₁ ++ a :: l₂)) c = len b + off len l₁ c := by
  rw [off_cons_ne len (nm h.b_l₁ hc), off_append_left len hc]

theorem Split.off_l₂ {c : Label} (hc : c ∉ l₁) (hc' : c ∈ l₂) :
    off len (b :: (l₁ ++ a :: l₂)) c = len b + sumLen len l₁ + len a + off len l₂ c := by
  rw [off_cons_ne len (nm h.b_l₂ hc'), off_append_right len hc,
    off_cons_ne len (nm h.a_l₂ hc')]
  ring

/-- Bottom offsets after the step. -/
theorem Split.off'_a : off len (l₁ ++ b :: a :: l₂) a = sumLen len l₁ + len b := by
  rw [off_append_right len h.a_l₁, off_cons_ne len h.b_a]; simp

theorem Split.off'_b : off len (l₁ ++ b :: a :: l₂) b = sumLen len l₁ := by
  rw [off_append_right len h.b_l₁]; simp

theorem Split.off'_l₁ {c : Label} (hc : c ∈ l₁) : off len (l₁ ++ b :: a :: l₂) c = off len l₁ c := by
  rw [off_append_left len hc]

theorem Split.off'_l₂ {c : Label} (hc : c ∉ l₁) (hc' : c ∈ l₂) :
    off len (l₁ ++ b :: a :: l₂) c = sumLen len l₁ + len b + len a + off len l₂ c := by
  rw [off_append_right len hc, off_cons_ne len (nm h.b_l₂ hc'),
    off_cons_ne len (nm h.a_l₂ hc')]
  ring

/-- Bottom offsets after merging. -/
theorem Split.off''_b : off len (l₁ ++ b :: l₂) b = sumLen len l₁ := by
  rw [off_append_right len h.b_l₁]; simp

theorem Split.off''_l₁ {c : Label} (hc : c ∈ l₁) : off len (l₁ ++ b :: l₂) c = off len l₁ c := by
  rw [off_append_left len hc]

theorem Split.off''_l₂ {c : Label} (hc : c ∉ l₁) (hc' : c ∈ l₂) :
    off len (l₁ ++ b :: l₂) c = sumLen len l₁ + len b + off len l₂ c := by
  rw [off_append_right len hc, off_cons_ne len (nm h.b_l₂ hc')]
  ring

theorem Split.off_t {c : Label} (hc : c ∈ t) : off len (a :: t) c = len a + off len t c :=
  off_cons_ne len (nm h.a_t hc) t

end offsets

theorem shorten_eq (len : Label → P) (a : Label) (d : P) : shorten len a d a = len a - d := by
  simp [shorten]
theorem shorten_ne (len : Label → P) {a : Label} (d : P) {c : Label} (h : c ≠ a) :
    shorten len a d c = len c := by simp [shorten, h]

theorem shorten_congr (len : Label → P) {a : Label} (d : P) {l : List Label} (h : a ∉ l) :
    ∀ c ∈ l, shorten len a d c = len c := fun _ hc => shorten_ne len d (nm h hc).symm

theorem shorten_shorten (len : Label → P) (a : Label) (d d' : P) :
    shorten (shorten len a d) a d' = shorten len a (d + d') := by
  funext c; by_cases h : c = a <;> simp [shorten, h]; ring

theorem shorten_zero (len : Label → P) (a : Label) : shorten len a 0 = len := by
  funext c; by_cases h : c = a <;> simp [shorten, h]

/-- Points of the leftmost bottom interval leave it immediately. -/
theorem hits_of_split {a b : Label} {t l₁ l₂ : List Label} {len : Label → P}
    (hE : (⟨a :: t, b :: (l₁ ++ a :: l₂), len⟩ : AIET P).Valid) (hlt : len b ≤ len a) (x : P) (h0 : 0 ≤ x) :
    ∃ y, Relation.ReflTransGen (⟨a :: t, b :: (l₁ ++ a :: l₂), len⟩ : AIET P).Maps x y ∧ len b ≤ y := by
  by_cases hx : len b ≤ x
  · exact ⟨x, .refl, hx⟩
  · have hx := not_le.mp hx
    have hs := hE.split
    have : 0 ≤ sumLen len l₁ := sumLen_nonneg fun c hc => hE.pos_bottom c (by simp [hc])
    refine ⟨x - 0 + (len b + sumLen len l₁), .single ⟨a, by simp, ?_, ?_, ?_⟩, by linarith⟩
    · simpa using h0
    · simp; linarith
    · simp only [off_cons_self]; rw [hs.off_a]

theorem RauzyTop.fwd {E E' : AIET P} (hE : E.Valid) (h : RauzyTop E E') :
    ∃ b ∈ E.top, Fwd E (E.len b) E' := by
  obtain ⟨a, b, t, l₁, l₂, len, hlt⟩ := h
  have hs := hE.split
  refine ⟨b, List.mem_cons_of_mem _ hs.b_t, ?_⟩
  have hb : 0 < len b := hE.pos b (List.mem_cons_of_mem _ hs.b_t)
  have hpl₁ : ∀ c ∈ l₁, 0 < len c := fun c hc => hE.pos_bottom c (by simp [hc])
  have hpl₂ : ∀ c ∈ l₂, 0 < len c := fun c hc => hE.pos_bottom c (by simp [hc])
  have hpt : ∀ c ∈ t, 0 < len c := fun c hc => hE.pos c (by simp [hc])
  have hs₁ : 0 ≤ sumLen len l₁ := sumLen_nonneg hpl₁
  have hE' : (⟨a :: t, l₁ ++ b :: a :: l₂, shorten len a (len b)⟩ : AIET P).Valid := by
    refine ⟨by simp, hE.nodup, ?_, ?_⟩
    · refine List.Perm.trans ?_ hE.perm
      refine List.perm_middle.trans (List.Perm.refl _)
    · intro c hc
      by_cases hca : c = a
      · subst hca; simp [shorten]; exact hlt
      · simp only; rw [shorten_ne _ _ hca]; exact hE.pos c hc
  refine ⟨hE, hE', hb.le, ?_, ?_, fun x h0 _ => hits_of_split hE hlt.le x h0⟩
  · simp only [AIET.total, sumLen_cons]
    rw [shorten_eq, sumLen_congr (shorten_congr len (len b) hs.a_t)]; ring
  · rintro x y ⟨c, hc, h1, h2, h3⟩
    have hy := (hE'.maps_range ⟨c, hc, h1, h2, h3⟩).1
    simp only at hc h1 h2 h3
    have c1 := shorten_congr len (len b) hs.a_l₁
    have c2 := shorten_congr len (len b) hs.a_l₂
    have ct := shorten_congr len (len b) hs.a_t
    by_cases hca : c = a
    · subst hca
      rw [hs.off'_a, sumLen_congr c1, shorten_ne len _ hs.b_a] at h3
      simp only [off_cons_self, shorten_eq] at h1 h2 h3
      refine .now ⟨c, by simp, ?_, ?_, ?_⟩ ?_
      · simp only [off_cons_self]; linarith
      · simp only [off_cons_self]; linarith
      · simp only [off_cons_self]; rw [hs.off_a]; linarith
      · linarith
    · have hct : c ∈ t := by simpa [hca] using hc
      rw [off_cons_ne _ (Ne.symm hca), shorten_eq, off_congr ct] at h1 h2 h3
      rw [shorten_ne _ _ hca] at h2
      by_cases hcb : c = b
      · subst hcb
        rw [hs.off'_b, sumLen_congr c1] at h3
        refine .later (z := x + len c - (len a + off len t c)) ⟨c, hc, ?_, ?_, ?_⟩ ?_
          (.now ⟨a, by simp, ?_, ?_, ?_⟩ ?_)
        · simp only; rw [hs.off_t len hct]; linarith
        · simp only; rw [hs.off_t len hct]; linarith
        · simp only; rw [hs.off_t len hct, off_cons_self]; linarith
        · simp only [not_le]; linarith
        · simp only [off_cons_self]; linarith
        · simp only [off_cons_self]; linarith
        · simp only [off_cons_self]; rw [hs.off_a]; linarith
        · linarith
      · rcases hs.cases hct hcb with hc₁ | ⟨hc₁, hc₂⟩
        · rw [hs.off'_l₁ _ hc₁, off_congr c1] at h3
          refine .now ⟨c, hc, ?_, ?_, ?_⟩ ?_
          · simp only; rw [hs.off_t len hct]; linarith
          · simp only; rw [hs.off_t len hct]; linarith
          · simp only; rw [hs.off_t len hct, hs.off_l₁ len hc₁]; linarith
          · linarith
        · rw [hs.off'_l₂ _ hc₁ hc₂, off_congr c2, sumLen_congr c1, shorten_ne len _ hs.b_a, shorten_eq] at h3
          refine .now ⟨c, hc, ?_, ?_, ?_⟩ ?_
          · simp only; rw [hs.off_t len hct]; linarith
          · simp only; rw [hs.off_t len hct]; linarith
          · simp only; rw [hs.off_t len hct, hs.off_l₂ len hc₁ hc₂]; linarith
          · linarith

theorem MergeTop.fwd {E E' : AIET P} (hE : E.Valid) (h : MergeTop E E') :
    ∃ b ∈ E.top, Fwd E (E.len b) E' := by
  obtain ⟨a, b, t, l₁, l₂, len, heq⟩ := h
  have hs := hE.split
  refine ⟨b, List.mem_cons_of_mem _ hs.b_t, ?_⟩
  have hb : 0 < len b := hE.pos b (List.mem_cons_of_mem _ hs.b_t)
  have hpl₁ : ∀ c ∈ l₁, 0 < len c := fun c hc => hE.pos_bottom c (by simp [hc])
  have hs₁ : 0 ≤ sumLen len l₁ := sumLen_nonneg hpl₁
  have hE' : (⟨t, l₁ ++ b :: l₂, len⟩ : AIET P).Valid := by
    refine ⟨fun e => ?_, hs.t_nodup, List.perm_middle.trans hs.perm, fun c hc => hE.pos c (by simp [hc])⟩
    have := hs.b_t
    simp only at e
    rw [e] at this; simp at this
  refine ⟨hE, hE', hb.le, ?_, ?_, fun x h0 _ => hits_of_split hE heq.le x h0⟩
  · simp only [AIET.total, sumLen_cons]; rw [heq]; ring
  · rintro x y ⟨c, hct, h1, h2, h3⟩
    have hy := (hE'.maps_range ⟨c, hct, h1, h2, h3⟩).1
    simp only at hct h1 h2 h3
    have hc : c ∈ a :: t := List.mem_cons_of_mem _ hct
    by_cases hcb : c = b
    · subst hcb
      rw [hs.off''_b] at h3
      refine .later (z := x - off len t c) ⟨c, hc, ?_, ?_, ?_⟩ ?_
        (.now ⟨a, by simp, ?_, ?_, ?_⟩ ?_)
      · simp only; rw [hs.off_t len hct]; linarith
      · simp only; rw [hs.off_t len hct]; linarith
      · simp only; rw [hs.off_t len hct, off_cons_self]; linarith
      · simp only [not_le]; linarith
      · simp only [off_cons_self]; linarith
      · simp only [off_cons_self]; linarith
      · simp only [off_cons_self]; rw [hs.off_a]; linarith
      · linarith
    · rcases hs.cases hct hcb with hc₁ | ⟨hc₁, hc₂⟩
      · rw [hs.off''_l₁ _ hc₁] at h3
        refine .now ⟨c, hc, ?_, ?_, ?_⟩ ?_
        · simp only; rw [hs.off_t len hct]; linarith
        · simp only; rw [hs.off_t len hct]; linarith
        · simp only; rw [hs.off_t len hct, hs.off_l₁ len hc₁]; linarith
        · linarith
      · rw [hs.off''_l₂ _ hc₁ hc₂] at h3
        refine .now ⟨c, hc, ?_, ?_, ?_⟩ ?_
        · simp only; rw [hs.off_t len hct]; linarith
        · simp only; rw [hs.off_t len hct]; linarith
        · simp only; rw [hs.off_t len hct, hs.off_l₂ len hc₁ hc₂]; linarith
        · linarith

end Verif
