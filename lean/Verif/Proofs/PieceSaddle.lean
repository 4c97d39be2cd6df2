import Verif.Proofs.Saddle

/-!
# Saddle connections of the pieces

The saddle connections of the pieces are the saddle connections of the original IET that have not been reported yet.
-/

namespace Verif

set_option linter.unusedSectionVars false

variable {P : Type} [CommRing P] [LinearOrder P] [IsStrictOrderedRing P]

/-- An interval begins at zero or where another interval ends. -/
theorem off_eq_end {len : Label → P} {a : Label} : ∀ {l : List Label}, l.Nodup → a ∈ l → off len l a = 0 ∨ ∃ t ∈ l.dropLast, off len l t + len t = off len l a
  | [], _, ha => by simp at ha
  | c :: l, hn, ha => by
    by_cases hca : c = a
    · left; rw [← hca, off_cons_self]
    · have ha' : a ∈ l := by simpa [Ne.symm hca] using ha
      have hne : l ≠ [] := List.ne_nil_of_mem ha'
      rw [List.nodup_cons] at hn
      right
      rw [List.dropLast_cons_of_ne_nil hne, off_cons_ne _ hca]
      rcases off_eq_end (len := len) hn.2 ha' with h | ⟨t, ht, h⟩
      · exact ⟨c, by simp, by rw [off_cons_self, h]; ring⟩
      · refine ⟨t, List.mem_cons_of_mem _ ht, ?_⟩
        rw [off_cons_ne _ (by rintro rfl; exact hn.1 (List.mem_of_mem_dropLast ht)), ← h]
        ring

/-- A point that is not in the interior of an interval. -/
theorem AIET.Valid.not_inner {A : AIET P} (hA : A.Valid) {x z : P} (h : A.Maps x z) (hx : ¬ A.Inner x) : x = 0 ∨ ∃ t ∈ A.top.dropLast, A.rightTop t = x := by
  obtain ⟨a, ha, h1, h2, -⟩ := h
  have e : off A.len A.top a = x := by
    rcases h1.lt_or_eq with h | h
    · exact absurd ⟨a, ha, h, h2⟩ hx
    · exact h
  rw [← e]
  exact off_eq_end hA.nodup ha

theorem orbits_from' {α : Type} {f r s : α → α → Prop} (hf : ∀ x y z, f x y → f x z → y = z) (hr : ∀ x y, r x y → f x y) (hs : ∀ x y, s x y → f x y)
    {x y z : α} (h : Relation.ReflTransGen r x y) (h' : Relation.ReflTransGen s x z) :
    (Relation.ReflTransGen s x y ∧ Relation.ReflTransGen s y z) ∨ (Relation.ReflTransGen r x z ∧ Relation.ReflTransGen r z y) := by
  induction h using Relation.ReflTransGen.head_induction_on with
  | refl => exact .inl ⟨.refl, h'⟩
  | head h1 h2 ih =>
    rcases Relation.ReflTransGen.cases_head h' with rfl | ⟨w, h3, h4⟩
    · exact .inr ⟨.refl, .head h1 h2⟩
    · obtain rfl := hf _ _ _ (hr _ _ h1) (hs _ _ h3)
      rcases ih h4 with ⟨g1, g2⟩ | ⟨g1, g2⟩
      · exact .inl ⟨.head h3 g1, g2⟩
      · exact .inr ⟨.head h1 g1, g2⟩

theorem orbits_to' {α : Type} {f r s : α → α → Prop} (hf : ∀ x y z, f x z → f y z → x = y) (hr : ∀ x y, r x y → f x y) (hs : ∀ x y, s x y → f x y)
    {x y z : α} (h : Relation.ReflTransGen r x z) (h' : Relation.ReflTransGen s y z) :
    (Relation.ReflTransGen s y x ∧ Relation.ReflTransGen s x z) ∨ (Relation.ReflTransGen r x y ∧ Relation.ReflTransGen r y z) := by
  induction h with
  | refl => exact .inl ⟨h', .refl⟩
  | tail h1 h2 ih =>
    rcases Relation.ReflTransGen.cases_tail h' with rfl | ⟨w, h3, h4⟩
    · exact .inr ⟨.tail h1 h2, .refl⟩
    · obtain rfl := hf _ _ _ (hr _ _ h2) (hs _ _ h4)
      rcases ih h3 with ⟨g1, g2⟩ | ⟨g1, g2⟩
      · exact .inl ⟨g1, .tail g2 h4⟩
      · exact .inr ⟨g1, .tail g2 h2⟩

/-- A step from a point in the interior of an interval. -/
def AIET.InnerStep (A : AIET P) (x z : P) : Prop := A.Inner x ∧ A.Maps x z

variable {A₀ : AIET P} {pieces : List (P × AIET P)} {m : ConnMap} {R : List Conn}

theorem pre_inner {S : P → Prop} {x z : P} (h : Relation.ReflTransGen (A₀.PreStep S) x z) : Relation.ReflTransGen A₀.InnerStep x z :=
  Relation.ReflTransGen.mono (fun _ _ h => ⟨h.2.1, h.1⟩) _ _ h

theorem post_inner {S : P → Prop} {x z : P} (h : Relation.ReflTransGen (A₀.PostStep S) x z) : Relation.ReflTransGen A₀.InnerStep x z :=
  Relation.ReflTransGen.mono (fun _ _ h => ⟨h.2.1, h.1⟩) _ _ h

theorem Towers.lift_inner {w : Label → List Label} (h : Towers A₀ pieces w) {p : P × AIET P} (hp : p ∈ pieces) (hv : p.2.Valid) {x z : P}
    (hm : Relation.ReflTransGen p.2.InnerStep x z) : Relation.ReflTransGen A₀.InnerStep (x + p.1) (z + p.1) := by
  refine pre_inner (S := fun _ => False) (h.lift_pre hp hv (S := fun _ => False) (fun _ h => h.elim) (fun _ h => h) ?_)
  exact Relation.ReflTransGen.mono (fun _ _ h => ⟨h.2, h.1, fun h => h⟩) _ _ hm

section

variable (h : Track A₀ pieces m R) {p : P × AIET P} (hp : p ∈ pieces) {b t : Label} (hb : b ∈ p.2.bottom.dropLast) (ht : t ∈ p.2.top.dropLast)

include h hp hb ht

/-- On the way from one end point to another end point, the left end of the piece is not met. -/
theorem Track.not_left (h1 : Relation.ReflTransGen A₀.InnerStep (p.2.rightBottom b + p.1) p.1)
    (h2 : Relation.ReflTransGen A₀.InnerStep p.1 (p.2.rightTop t + p.1)) : False := by
  have hA := h.base
  have ib := (h.cover.valid p hp).rightBottom_interior hb
  have it := (h.cover.valid p hp).rightTop_interior ht
  have nb : Interior p (p.2.rightBottom b + p.1) := ⟨by linarith, by linarith⟩
  have nt : Interior p (p.2.rightTop t + p.1) := ⟨by linarith, by linarith⟩
  rcases h.starts p hp with e | ⟨b₁, hb₁, hl⟩ | ⟨t₁, ht₁, hl⟩
  · rcases Relation.ReflTransGen.cases_head h2 with e' | ⟨_, ⟨⟨a, ha, g1, _⟩, _⟩, _⟩
    · linarith
    · have := off_nonneg (fun b hb => hA.pos b hb) (l := A₀.top) a
      linarith
  · have key : Relation.ReflTransGen (A₀.PreStep (Interior p)) (p.2.rightBottom b + p.1) p.1 := by
      rcases orbits_to' (f := A₀.Maps) (fun x y z h h' => hA.maps_inj h h') (fun _ _ h => h.2) (fun _ _ h => h.1) h1 hl with ⟨_, g⟩ | ⟨g, _⟩
      · exact g
      · rcases Relation.ReflTransGen.cases_tail g with e | ⟨y, _, g⟩
        · rw [← e]; exact hl
        · exact absurd g.1 (hA.not_inner_rightBottom (List.mem_of_mem_dropLast hb₁) g.2)
    rcases Relation.ReflTransGen.cases_head key with e | ⟨_, g, _⟩
    · linarith
    · exact g.2.2 nb
  · have key : Relation.ReflTransGen (A₀.PostStep (Interior p)) p.1 (p.2.rightTop t + p.1) := by
      rcases orbits_from' hA.maps_fun (fun _ _ h => h.1) (fun _ _ h => h.2) hl h2 with ⟨_, g⟩ | ⟨g, _⟩
      · rcases Relation.ReflTransGen.cases_head g with e | ⟨y, g, _⟩
        · rw [← e]; exact hl
        · exact absurd g.1 (hA.not_inner_rightTop (List.mem_of_mem_dropLast ht₁))
      · exact g
    rcases Relation.ReflTransGen.cases_tail key with e | ⟨_, _, g⟩
    · linarith
    · exact g.2.2 nt

/-- An orbit through the interiors of intervals of the original IET that starts and ends at end points of a piece is along the interiors of the
intervals of the piece. -/
theorem Track.inner_path {x : P} (hx : Relation.ReflTransGen p.2.Maps x (p.2.rightTop t)) :
    Relation.ReflTransGen A₀.InnerStep (p.2.rightBottom b + p.1) (x + p.1) → Relation.ReflTransGen A₀.InnerStep (x + p.1) (p.2.rightTop t + p.1) →
    Relation.ReflTransGen p.2.InnerStep x (p.2.rightTop t) := by
  have hA := h.base
  have hv := h.cover.valid p hp
  obtain ⟨w, hw⟩ := h.towers
  induction hx using Relation.ReflTransGen.head_induction_on with
  | refl => exact fun _ _ => .refl
  | @head x x' hm hr ih =>
    intro h1 h2
    by_cases hxt : x = p.2.rightTop t
    · rw [hxt]
    by_cases hin : p.2.Inner x
    · refine .head ⟨hin, hm⟩ (ih ?_ ?_)
      · exact h1.trans (hw.lift_inner hp hv (.single ⟨hin, hm⟩))
      · obtain ⟨a, x₀, y₀, g1, g2, g3⟩ := hw.excursion_inner hp hv hm hin
        have hpath := g2.post (S' := fun z => Inside p z ∧ z ≠ x' + p.1) (fun z hz => hz.1) g3 g1 (fun hz => hz.2 rfl)
        rcases orbits_from' hA.maps_fun (fun _ _ h => h.1) (fun _ _ h => h.2) hpath h2 with ⟨_, g⟩ | ⟨g, _⟩
        · exact g
        · rcases Relation.ReflTransGen.cases_tail g with e | ⟨_, _, g⟩
          · exact absurd (add_right_cancel e).symm hxt
          · have it := hv.rightTop_interior ht
            have : p.2.rightTop t + p.1 = x' + p.1 := by
              by_contra hne
              exact g.2.2 ⟨⟨by linarith, by linarith⟩, hne⟩
            rw [this]
    · exfalso
      rcases hv.not_inner hm hin with rfl | ⟨t₁, ht₁, rfl⟩
      · rw [zero_add] at h1 h2
        exact h.not_left hp hb ht h1 h2
      · have k1 := h2.trans (post_inner (h.primTop p hp t ht))
        have k2 := post_inner (h.primTop p hp t₁ ht₁)
        have mem : ∀ {u}, u ∈ p.2.top.dropLast → u ∈ A₀.top := fun hu => h.mem p hp _ (List.mem_of_mem_dropLast hu)
        have e : A₀.rightTop t₁ = A₀.rightTop t := by
          rcases orbits_from hA.maps_fun (fun _ _ h => h.2) (fun _ _ h => h.2) k2 k1 with g | g
          · rcases Relation.ReflTransGen.cases_head g with e | ⟨_, g, _⟩
            · exact e
            · exact absurd g.1 (hA.not_inner_rightTop (mem ht₁))
          · rcases Relation.ReflTransGen.cases_head g with e | ⟨_, g, _⟩
            · exact e.symm
            · exact absurd g.1 (hA.not_inner_rightTop (mem ht))
        exact hxt (by rw [hA.rightTop_inj (mem ht₁) (mem ht) e])

end

theorem Track.saddle_of_piece (h : Track A₀ pieces m R) {p : P × AIET P} (hp : p ∈ pieces) {b t : Label} (hs : p.2.Saddle b t) : A₀.Saddle (m.endOf b) t := by
  obtain ⟨hb, ht, hr⟩ := hs
  obtain ⟨w, hw⟩ := h.towers
  refine ⟨h.sources.mem_iff.mp (List.mem_append_left _ (List.mem_flatMap.mpr ⟨p, hp, List.mem_map_of_mem hb⟩)),
    h.targets.mem_iff.mp (List.mem_append_left _ (List.mem_flatMap.mpr ⟨p, hp, ht⟩)), ?_⟩
  exact ((pre_inner (h.primBot p hp b hb)).trans (hw.lift_inner hp (h.cover.valid p hp) hr)).trans (post_inner (h.primTop p hp t ht))

/-- The saddle connections are the ones that have been reported and the ones of the pieces. -/
theorem Track.saddle_iff (h : Track A₀ pieces m R) {a t : Label} :
    A₀.Saddle a t ↔ ⟨⟨a, true⟩, ⟨t, false⟩⟩ ∈ R ∨ ∃ p ∈ pieces, ∃ b, m.endOf b = a ∧ p.2.Saddle b t := by
  constructor
  swap
  · rintro (hc | ⟨p, hp, b, rfl, hs⟩)
    · exact h.saddle hc
    · exact h.saddle_of_piece hp hs
  intro hs
  have hA := h.base
  have form : ∀ c ∈ R, c.source.label = a → c.target.label = t → ⟨⟨a, true⟩, ⟨t, false⟩⟩ ∈ R := by
    intro c hc e1 e2
    obtain ⟨g1, g2⟩ := h.shape c hc
    obtain ⟨⟨_, _⟩, ⟨_, _⟩⟩ := c
    simp only at e1 e2 g1 g2
    subst e1 e2 g1 g2
    exact hc
  rcases List.mem_append.mp (h.sources.mem_iff.mpr hs.1) with hb | hb
  swap
  · obtain ⟨c, hc, rfl⟩ := List.mem_map.mp hb
    exact .inl (form c hc rfl (hA.saddle_target (h.saddle hc) hs))
  rcases List.mem_append.mp (h.targets.mem_iff.mpr hs.2.1) with ht | ht
  swap
  · obtain ⟨c, hc, rfl⟩ := List.mem_map.mp ht
    exact .inl (form c hc (hA.saddle_source (h.saddle hc) hs) rfl)
  right
  obtain ⟨p, hp, hb⟩ := List.mem_flatMap.mp hb
  obtain ⟨b', hb', rfl⟩ := List.mem_map.mp hb
  obtain ⟨q, hq, ht⟩ := List.mem_flatMap.mp ht
  have ip := (h.cover.valid p hp).rightBottom_interior hb'
  have iq := (h.cover.valid q hq).rightTop_interior ht
  have hu := h.primBot p hp b' hb'
  have hv := h.primTop q hq t ht
  have hup : Inside p (p.2.rightBottom b' + p.1) := ⟨by linarith, by linarith⟩
  have hvq : Inside q (q.2.rightTop t + q.1) := ⟨by linarith, by linarith⟩
  have h1 : Relation.ReflTransGen A₀.InnerStep (p.2.rightBottom b' + p.1) (A₀.rightTop t) := by
    rcases orbits_from hA.maps_fun (fun _ _ h => h.1) (fun _ _ h => h.2) hu hs.2.2 with h1 | h1
    · exact h1
    · rcases Relation.ReflTransGen.cases_head h1 with e | ⟨_, h4, _⟩
      · rw [e]
      · exact absurd h4.2.1 (hA.not_inner_rightTop (List.mem_of_mem_dropLast hs.2.1))
  have h2 : p = q ∧ Relation.ReflTransGen A₀.InnerStep (p.2.rightBottom b' + p.1) (q.2.rightTop t + q.1) := by
    rcases orbits_to (f := A₀.Maps) (fun x y z h h' => hA.maps_inj h h') (fun _ _ h => h.2) (fun _ _ h => h.1) h1 hv with h2 | h2
    · have hpq : q = p := h.cover.meets_unique hA hq hp ⟨_, .refl, hvq⟩ ⟨_, Relation.ReflTransGen.mono (fun _ _ (h : A₀.PostStep _ _ _) => h.1) _ _ h2, hup⟩
      subst hpq
      rcases Relation.ReflTransGen.cases_tail h2 with e | ⟨_, _, h4⟩
      · exact ⟨rfl, by rw [e]⟩
      · exact absurd ⟨by linarith, by linarith⟩ h4.2.2
    · have h3 := Relation.ReflTransGen.mono (fun _ _ (h : A₀.InnerStep _ _) => h.2) _ _ h2
      exact ⟨h.cover.meets_unique hA hp hq ⟨_, .refl, hup⟩ ⟨_, h3, hvq⟩, h2⟩
  obtain ⟨rfl, h2⟩ := h2
  refine ⟨p, hp, b', rfl, hb', ht, h.inner_path hp hb' ht ?_ .refl h2⟩
  have h3 := Relation.ReflTransGen.mono (fun _ _ (h : A₀.InnerStep _ _) => h.2) _ _ h2
  rcases Relation.reflTransGen_iff_eq_or_transGen.mp h3 with e | h3
  · rw [add_right_cancel e]
  · have := h.cover.transGen_piece (o := p.1) (A := p.2) hp hup hvq h3
    rw [add_sub_cancel_right, add_sub_cancel_right] at this
    exact this.to_reflTransGen

/-- The two possibilities exclude each other. -/
theorem Track.saddle_disjoint (h : Track A₀ pieces m R) {p : P × AIET P} (hp : p ∈ pieces) {t : Label} (ht : t ∈ p.2.top.dropLast) {c : Conn} (hc : c ∈ R) :
    c.target.label ≠ t := by
  rintro rfl
  have hn := h.targets.nodup_iff.mpr (h.base.nodup.sublist (List.dropLast_sublist _))
  exact (List.nodup_append.mp hn).2.2 _ (List.mem_flatMap.mpr ⟨p, hp, ht⟩) _ (List.mem_map.mpr ⟨c, hc, rfl⟩) rfl

/-- The saddle connections of a piece. -/
theorem Track.piece_saddle (h : Track A₀ pieces m R) {p : P × AIET P} (hp : p ∈ pieces) {b t : Label} (hb : b ∈ p.2.bottom.dropLast) (ht : t ∈ p.2.top.dropLast) :
    p.2.Saddle b t ↔ A₀.Saddle (m.endOf b) t := by
  refine ⟨h.saddle_of_piece hp, fun hs => ?_⟩
  rcases h.saddle_iff.mp hs with hc | ⟨q, hq, b', e, hs'⟩
  · exact absurd rfl (h.saddle_disjoint hp ht hc)
  · have hpq : p = q := by
      by_contra hne
      have hd : Std.Symm (fun p q : P × AIET P => ∀ a ∈ p.2.top, a ∉ q.2.top) := ⟨fun _ _ h a ha ha' => h a ha' ha⟩
      exact h.disjoint.forall hp hq hne t (List.mem_of_mem_dropLast ht) (List.mem_of_mem_dropLast hs'.2.1)
    subst hpq
    have hn := h.sources.nodup_iff.mpr (h.base.inv.nodup.sublist (List.dropLast_sublist _))
    have h1 := (List.nodup_append.mp hn).1
    rw [List.nodup_flatMap] at h1
    rw [← List.inj_on_of_nodup_map (h1.1 p hp) hs'.1 hb e]
    exact hs'

end Verif
