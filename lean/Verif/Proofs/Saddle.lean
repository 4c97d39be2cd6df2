import Verif.Proofs.Itinerary

/-!
# Saddle connections

The connections of a decomposition are saddle connections of the original IET.
-/

namespace Verif

set_option linter.unusedSectionVars false

variable {P : Type} [CommRing P] [LinearOrder P] [IsStrictOrderedRing P]

theorem AIET.Valid.not_inner_rightTop {A : AIET P} (hA : A.Valid) {t : Label} (ht : t ∈ A.top) : ¬ A.Inner (A.rightTop t) := by
  rintro ⟨a, ha, h1, h2⟩
  simp only [AIET.rightTop] at h1 h2
  rcases ends_ordered hA.pos ha ht with h | h <;> linarith

theorem AIET.Valid.inner_next {A : AIET P} (hA : A.Valid) {x z : P} (h : A.Maps x z) (hx : A.Inner x) : A.inv.Inner z :=
  hA.inv.inner_inv (A := A.inv) h hx

theorem AIET.Valid.not_inner_rightBottom {A : AIET P} (hA : A.Valid) {b : Label} (hb : b ∈ A.bottom) {x : P} (h : A.Maps x (A.rightBottom b)) :
    ¬ A.Inner x :=
  fun hx => hA.inv.not_inner_rightTop (A := A.inv) hb (hA.inner_next h hx)

theorem AIET.Valid.rightTop_inj {A : AIET P} (hA : A.Valid) {t t' : Label} (ht : t ∈ A.top) (ht' : t' ∈ A.top) (h : A.rightTop t = A.rightTop t') :
    t = t' := by
  simp only [AIET.rightTop] at h
  have p1 := hA.pos t ht
  have p2 := hA.pos t' ht'
  exact off_unique hA.pos (x := max (off A.len A.top t) (off A.len A.top t')) ht ht' (le_max_left _ _)
    (max_lt (by linarith) (by linarith)) (le_max_right _ _) (max_lt (by linarith) (by linarith))

theorem AIET.Valid.rightBottom_inj {A : AIET P} (hA : A.Valid) {b b' : Label} (hb : b ∈ A.bottom) (hb' : b' ∈ A.bottom)
    (h : A.rightBottom b = A.rightBottom b') : b = b' :=
  hA.inv.rightTop_inj (A := A.inv) hb hb' h

theorem AIET.Valid.rightTop_interior {A : AIET P} (hA : A.Valid) {t : Label} (ht : t ∈ A.top.dropLast) : 0 < A.rightTop t ∧ A.rightTop t < A.total := by
  have hm := List.mem_of_mem_dropLast ht
  have h0 := off_nonneg hA.pos t
  have h1 := hA.pos t hm
  simp only [AIET.rightTop]
  refine ⟨by linarith, ?_⟩
  have hne : A.top ≠ [] := List.ne_nil_of_mem hm
  have e := List.dropLast_append_getLast hne
  have h2 := off_add_le (len := A.len) (l := A.top.dropLast) (fun a ha => hA.pos a (List.mem_of_mem_dropLast ha)) ht
  have h3 := hA.pos _ (List.getLast_mem hne)
  simp only [AIET.total]
  rw [← e, off_append_left _ ht, sumLen_append]
  simp only [sumLen_cons, sumLen_nil]
  linarith

theorem AIET.Valid.rightBottom_interior {A : AIET P} (hA : A.Valid) {b : Label} (hb : b ∈ A.bottom.dropLast) :
    0 < A.rightBottom b ∧ A.rightBottom b < A.total := by
  have := hA.inv.rightTop_interior (A := A.inv) hb
  rwa [hA.total_inv] at this

/-- One of two orbits of the same point is longer. -/
theorem orbits_from {α : Type} {f r s : α → α → Prop} (hf : ∀ x y z, f x y → f x z → y = z) (hr : ∀ x y, r x y → f x y) (hs : ∀ x y, s x y → f x y)
    {x y z : α} (h : Relation.ReflTransGen r x y) (h' : Relation.ReflTransGen s x z) :
    Relation.ReflTransGen s y z ∨ Relation.ReflTransGen r z y := by
  induction h using Relation.ReflTransGen.head_induction_on with
  | refl => exact .inl h'
  | head h1 h2 ih =>
    rcases Relation.ReflTransGen.cases_head h' with rfl | ⟨w, h3, h4⟩
    · exact .inr (.head h1 h2)
    · obtain rfl := hf _ _ _ (hr _ _ h1) (hs _ _ h3)
      exact ih h4

theorem orbits_to {α : Type} {f r s : α → α → Prop} (hf : ∀ x y z, f x z → f y z → x = y) (hr : ∀ x y, r x y → f x y) (hs : ∀ x y, s x y → f x y)
    {x y z : α} (h : Relation.ReflTransGen r x z) (h' : Relation.ReflTransGen s y z) :
    Relation.ReflTransGen s y x ∨ Relation.ReflTransGen r x y := by
  induction h with
  | refl => exact .inl h'
  | tail h1 h2 ih =>
    rcases Relation.ReflTransGen.cases_tail h' with rfl | ⟨w, h3, h4⟩
    · exact .inr (.tail h1 h2)
    · obtain rfl := hf _ _ _ (hr _ _ h2) (hs _ _ h4)
      exact ih h3

/-- Saddle connections of the inverse. -/
theorem AIET.Valid.saddle_inv {A : AIET P} (hA : A.Valid) {b t : Label} : A.inv.Saddle t b ↔ A.Saddle b t := by
  have key : ∀ {A : AIET P}, A.Valid → ∀ {b t : Label}, A.inv.Saddle t b → A.Saddle b t := by
    rintro A hA b t ⟨h1, h2, h3⟩
    refine ⟨h2, h1, ?_⟩
    have : ∀ {x y : P}, Relation.ReflTransGen (fun x z => A.inv.Inner x ∧ A.inv.Maps x z) x y →
        Relation.ReflTransGen (fun x z => A.Inner x ∧ A.Maps x z) y x := by
      intro x y h
      induction h with
      | refl => exact .refl
      | tail _ h ih => exact .head ⟨hA.inner_inv h.2 h.1, hA.maps_inv.mp h.2⟩ ih
    exact this h3
  exact ⟨key hA, fun h => key hA.inv (b := t) (t := b) h⟩

variable {A₀ : AIET P} {pieces : List (P × AIET P)} {m : ConnMap} {R : List Conn}

/-- Connections are saddle connections. -/
theorem Track.saddle (h : Track A₀ pieces m R) {c : Conn} (hc : c ∈ R) : A₀.Saddle c.source.label c.target.label :=
  ⟨h.sources.mem_iff.mp (List.mem_append_right _ (List.mem_map.mpr ⟨c, hc, rfl⟩)),
    h.targets.mem_iff.mp (List.mem_append_right _ (List.mem_map.mpr ⟨c, hc, rfl⟩)), h.primSaddles c hc⟩

theorem AIET.Valid.saddle_target {A : AIET P} (hA : A.Valid) {b t t' : Label} (h : A.Saddle b t) (h' : A.Saddle b t') : t = t' := by
  obtain ⟨_, h1, h2⟩ := h
  obtain ⟨_, h1', h2'⟩ := h'
  have ht := List.mem_of_mem_dropLast h1
  have ht' := List.mem_of_mem_dropLast h1'
  apply hA.rightTop_inj ht ht'
  rcases orbits_from hA.maps_fun (fun _ _ h => h.2) (fun _ _ h => h.2) h2 h2' with h3 | h3
  · rcases Relation.ReflTransGen.cases_head h3 with e | ⟨_, h4, _⟩
    · exact e
    · exact absurd h4.1 (hA.not_inner_rightTop ht)
  · rcases Relation.ReflTransGen.cases_head h3 with e | ⟨_, h4, _⟩
    · exact e.symm
    · exact absurd h4.1 (hA.not_inner_rightTop ht')

theorem AIET.Valid.saddle_source {A : AIET P} (hA : A.Valid) {b b' t : Label} (h : A.Saddle b t) (h' : A.Saddle b' t) : b = b' :=
  hA.inv.saddle_target (A := A.inv) (hA.saddle_inv.mpr h) (hA.saddle_inv.mpr h')

/-- When there are no connections left in the pieces, then all saddle connections have been found. -/
theorem Track.saddle_mem (h : Track A₀ pieces m R)
    (hn : ∀ p ∈ pieces, ∀ b ∈ p.2.bottom.dropLast, ∀ t ∈ p.2.top.dropLast, ¬ Relation.ReflTransGen p.2.Maps (p.2.rightBottom b) (p.2.rightTop t))
    {b t : Label} (hs : A₀.Saddle b t) : ⟨⟨b, true⟩, ⟨t, false⟩⟩ ∈ R := by
  have hA := h.base
  have form : ∀ c ∈ R, c.source.label = b → c.target.label = t → ⟨⟨b, true⟩, ⟨t, false⟩⟩ ∈ R := by
    intro c hc e1 e2
    obtain ⟨g1, g2⟩ := h.shape c hc
    obtain ⟨⟨_, _⟩, ⟨_, _⟩⟩ := c
    simp only at e1 e2 g1 g2
    subst e1 e2 g1 g2
    exact hc
  have hb := h.sources.mem_iff.mpr hs.1
  have ht := h.targets.mem_iff.mpr hs.2.1
  rcases List.mem_append.mp hb with hb | hb
  swap
  · obtain ⟨c, hc, rfl⟩ := List.mem_map.mp hb
    exact form c hc rfl (hA.saddle_target (h.saddle hc) hs)
  rcases List.mem_append.mp ht with ht | ht
  swap
  · obtain ⟨c, hc, rfl⟩ := List.mem_map.mp ht
    exact form c hc (hA.saddle_source (h.saddle hc) hs) rfl
  exfalso
  obtain ⟨p, hp, hb⟩ := List.mem_flatMap.mp hb
  obtain ⟨b', hb', rfl⟩ := List.mem_map.mp hb
  obtain ⟨q, hq, ht⟩ := List.mem_flatMap.mp ht
  have ip := (h.cover.valid p hp).rightBottom_interior hb'
  have iq := (h.cover.valid q hq).rightTop_interior ht
  have hu := h.primBot p hp b' hb'
  have hv := h.primTop q hq t ht
  have hup : Inside p (p.2.rightBottom b' + p.1) := ⟨by linarith, by linarith⟩
  have hvq : Inside q (q.2.rightTop t + q.1) := ⟨by linarith, by linarith⟩
  have h1 : Relation.ReflTransGen (fun x z => A₀.Inner x ∧ A₀.Maps x z) (p.2.rightBottom b' + p.1) (A₀.rightTop t) := by
    rcases orbits_from hA.maps_fun (fun _ _ h => h.1) (fun _ _ h => h.2) hu hs.2.2 with h1 | h1
    · exact h1
    · rcases Relation.ReflTransGen.cases_head h1 with e | ⟨_, h4, _⟩
      · rw [e]
      · exact absurd h4.2.1 (hA.not_inner_rightTop (List.mem_of_mem_dropLast hs.2.1))
  rcases orbits_to (f := A₀.Maps) (fun x y z h h' => hA.maps_inj h h') (fun _ _ h => h.2) (fun _ _ h => h.1) h1 hv with h2 | h2
  · -- The end point is not met again
    have hpq : q = p := h.cover.meets_unique hA hq hp ⟨_, .refl, hvq⟩ ⟨_, Relation.ReflTransGen.mono (fun _ _ (h : A₀.PostStep _ _ _) => h.1) _ _ h2, hup⟩
    subst hpq
    rcases Relation.ReflTransGen.cases_tail h2 with e | ⟨_, _, h4⟩
    · exact hn q hq b' hb' t ht (by rw [add_right_cancel e])
    · exact h4.2.2 ⟨by linarith, by linarith⟩
  · have h2 := Relation.ReflTransGen.mono (fun _ _ (h : A₀.Inner _ ∧ A₀.Maps _ _) => h.2) _ _ h2
    have hpq : p = q := h.cover.meets_unique hA hp hq ⟨_, .refl, hup⟩ ⟨_, h2, hvq⟩
    subst hpq
    rcases Relation.reflTransGen_iff_eq_or_transGen.mp h2 with e | h3
    · exact hn p hp b' hb' t ht (by rw [add_right_cancel e])
    · have := h.cover.transGen_piece (o := p.1) (A := p.2) hp hup hvq h3
      rw [add_sub_cancel_right, add_sub_cancel_right] at this
      exact hn p hp b' hb' t ht this.to_reflTransGen

end Verif
