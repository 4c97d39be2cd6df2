import Verif.Proofs.Code

/-!
# Orbits of end points of intervals that do not meet other end points
-/

namespace Verif

set_option linter.unusedSectionVars false

variable {P : Type} [CommRing P] [LinearOrder P] [IsStrictOrderedRing P]

/-- There is no end point in the interior of an interval. -/
theorem ends_ordered {len : Label → P} {a t : Label} : ∀ {l : List Label}, (∀ b ∈ l, 0 < len b) → a ∈ l → t ∈ l →
    off len l a + len a ≤ off len l t + len t ∨ off len l t + len t ≤ off len l a
  | [], _, ha, _ => by simp at ha
  | c :: l, hp, ha, ht => by
    have hp' : ∀ b ∈ l, 0 < len b := fun b hb => hp b (List.mem_cons_of_mem _ hb)
    have pa := off_nonneg hp' a
    have pt := off_nonneg hp' t
    by_cases hca : c = a
    · by_cases hct : c = t
      · left; rw [← hca, ← hct]
      · left
        rw [← hca, off_cons_self, off_cons_ne _ hct]
        have := hp t ht
        linarith
    · by_cases hct : c = t
      · right
        rw [← hct, off_cons_self, off_cons_ne _ hca]
        linarith
      · rw [off_cons_ne _ hca, off_cons_ne _ hct]
        rcases ends_ordered hp' (by simpa [Ne.symm hca] using ha) (by simpa [Ne.symm hct] using ht) with h | h
        · left; linarith
        · right; linarith

/-- The interior of a piece. -/
def Interior (p : P × AIET P) (x : P) : Prop := p.1 < x ∧ x < p.1 + p.2.total

/-- A step from an inner point that is not in `S`. -/
def AIET.PreStep (A : AIET P) (S : P → Prop) (x z : P) : Prop := A.Maps x z ∧ A.Inner x ∧ ¬ S x

/-- A step from an inner point to a point that is not in `S`. -/
def AIET.PostStep (A : AIET P) (S : P → Prop) (x z : P) : Prop := A.Maps x z ∧ A.Inner x ∧ ¬ S z

theorem Interior.inside {p : P × AIET P} {x : P} (h : Interior p x) : Inside p x := ⟨h.1.le, h.2⟩

theorem AIET.Valid.inner_inv {A : AIET P} (hA : A.Valid) {x z : P} (h : A.inv.Maps x z) (hx : A.inv.Inner x) : A.Inner z := by
  obtain ⟨a, ha, h1, h2, rfl⟩ := h
  obtain ⟨b, hb, h3, h4⟩ := hx
  obtain rfl := off_unique hA.inv.pos ha hb h1 h2 h3.le h4
  refine ⟨a, hA.perm.mem_iff.mp ha, ?_, ?_⟩ <;> simp only [AIET.inv] at h1 h2 h3 h4 ⊢ <;> linarith

theorem AIET.Excursion.pre {E : AIET P} {S S' : P → Prop} (hS : ∀ z, S' z → S z) : ∀ {w : List Label} {x y x₀ y₀ : P},
    E.Excursion S w x₀ y₀ → E.Excursion S w x y → x₀ < x → ¬ S' x → Relation.ReflTransGen (E.PreStep S') x y
  | [], _, _, _, _, h, _, _, _ => h.elim
  | [a], x, y, x₀, y₀, h, h', hlt, hx => by
    obtain ⟨h1, h2, h3, h4⟩ := h
    obtain ⟨g1, g2, g3, g4⟩ := h'
    exact .single ⟨⟨a, g1, g2, g3, g4⟩, ⟨a, g1, by linarith, g3⟩, hx⟩
  | a :: b :: w, x, y, x₀, y₀, ⟨z₀, ⟨h1, h2, h3, h4⟩, _, h6⟩, ⟨z, ⟨g1, g2, g3, g4⟩, g5, g6⟩, hlt, hx => by
    refine .head ⟨⟨a, g1, g2, g3, g4⟩, ⟨a, g1, by linarith, g3⟩, hx⟩ ?_
    exact AIET.Excursion.pre hS h6 g6 (by linarith) (fun h => g5 (hS _ h))

theorem AIET.Excursion.post {E : AIET P} {S S' : P → Prop} (hS : ∀ z, S' z → S z) : ∀ {w : List Label} {x y x₀ y₀ : P},
    E.Excursion S w x₀ y₀ → E.Excursion S w x y → x₀ < x → ¬ S' y → Relation.ReflTransGen (E.PostStep S') x y
  | [], _, _, _, _, h, _, _, _ => h.elim
  | [a], x, y, x₀, y₀, h, h', hlt, hy => by
    obtain ⟨h1, h2, h3, h4⟩ := h
    obtain ⟨g1, g2, g3, g4⟩ := h'
    exact .single ⟨⟨a, g1, g2, g3, g4⟩, ⟨a, g1, by linarith, g3⟩, hy⟩
  | a :: b :: w, x, y, x₀, y₀, ⟨z₀, ⟨h1, h2, h3, h4⟩, _, h6⟩, ⟨z, ⟨g1, g2, g3, g4⟩, g5, g6⟩, hlt, hy => by
    refine .head ⟨⟨a, g1, g2, g3, g4⟩, ⟨a, g1, by linarith, g3⟩, fun h => g5 (hS _ h)⟩ ?_
    exact AIET.Excursion.post hS h6 g6 (by linarith) hy

/-- A step of a piece from an inner point is along inner points. -/
theorem Towers.excursion_inner {A₀ : AIET P} {pieces : List (P × AIET P)} {w : Label → List Label} (h : Towers A₀ pieces w) {p : P × AIET P}
    (hp : p ∈ pieces) (hv : p.2.Valid) {x z : P} (hm : p.2.Maps x z) (hx : p.2.Inner x) :
    ∃ a x₀ y₀, x₀ < x + p.1 ∧ A₀.Excursion (Inside p) (w a) x₀ y₀ ∧ A₀.Excursion (Inside p) (w a) (x + p.1) (z + p.1) := by
  obtain ⟨a, ha, h1, h2, rfl⟩ := hm
  obtain ⟨b, hb, h3, h4⟩ := hx
  obtain rfl := off_unique hv.pos ha hb h1 h2 h3.le h4
  refine ⟨a, off p.2.len p.2.top a + p.1, off p.2.len p.2.bottom a + p.1, by linarith, ?_, ?_⟩
  · exact h.excursion p hp a ha _ _ ⟨ha, le_refl _, by have := hv.pos a ha; linarith, by ring⟩
  · exact h.excursion p hp a ha _ _ ⟨ha, h1, h2, rfl⟩

theorem Towers.lift_pre {A₀ : AIET P} {pieces : List (P × AIET P)} {w : Label → List Label} (h : Towers A₀ pieces w) {p : P × AIET P}
    (hp : p ∈ pieces) (hv : p.2.Valid) {S S' : P → Prop} (hS : ∀ z, S' z → Inside p z) (hS' : ∀ z, S' (z + p.1) → S z) {x z : P}
    (hm : Relation.ReflTransGen (p.2.PreStep S) x z) : Relation.ReflTransGen (A₀.PreStep S') (x + p.1) (z + p.1) := by
  induction hm with
  | refl => exact .refl
  | tail _ h' ih =>
    obtain ⟨h1, h2, h3⟩ := h'
    obtain ⟨a, x₀, y₀, g1, g2, g3⟩ := h.excursion_inner hp hv h1 h2
    exact ih.trans (g2.pre hS g3 g1 (fun h => h3 (hS' _ h)))

theorem Towers.lift_post {A₀ : AIET P} {pieces : List (P × AIET P)} {w : Label → List Label} (h : Towers A₀ pieces w) {p : P × AIET P}
    (hp : p ∈ pieces) (hv : p.2.Valid) {S S' : P → Prop} (hS : ∀ z, S' z → Inside p z) (hS' : ∀ z, S' (z + p.1) → S z) {x z : P}
    (hm : Relation.ReflTransGen (p.2.PostStep S) x z) : Relation.ReflTransGen (A₀.PostStep S') (x + p.1) (z + p.1) := by
  induction hm with
  | refl => exact .refl
  | tail _ h' ih =>
    obtain ⟨h1, h2, h3⟩ := h'
    obtain ⟨a, x₀, y₀, g1, g2, g3⟩ := h.excursion_inner hp hv h1 h2
    exact ih.trans (g2.post hS g3 g1 (fun h => h3 (hS' _ h)))

theorem preSteps_mono {A : AIET P} {S S' : P → Prop} (hS : ∀ z, S' z → S z) {x z : P} (h : Relation.ReflTransGen (A.PreStep S) x z) :
    Relation.ReflTransGen (A.PreStep S') x z :=
  Relation.ReflTransGen.mono (fun _ _ h => ⟨h.1, h.2.1, fun h' => h.2.2 (hS _ h')⟩) _ _ h

theorem postSteps_mono {A : AIET P} {S S' : P → Prop} (hS : ∀ z, S' z → S z) {x z : P} (h : Relation.ReflTransGen (A.PostStep S) x z) :
    Relation.ReflTransGen (A.PostStep S') x z :=
  Relation.ReflTransGen.mono (fun _ _ h => ⟨h.1, h.2.1, fun h' => h.2.2 (hS _ h')⟩) _ _ h

/-- The end points of `B` are the first points on the orbits of the end points of `A` that are in the interior of `B`. -/
structure Prim (A : AIET P) (δ : P) (B : AIET P) : Prop where
  bot : ∀ b ∈ B.bottom.dropLast, Relation.ReflTransGen (A.PreStep (Interior (δ, B))) (A.rightBottom b) (B.rightBottom b + δ)
  top : ∀ t ∈ B.top.dropLast, Relation.ReflTransGen (A.PostStep (Interior (δ, B))) (B.rightTop t + δ) (A.rightTop t)

theorem RauzyTop.prim {A B : AIET P} (hA : A.Valid) (h : RauzyTop A B) {δ : P} (hδ : B.total + δ = A.total) : Prim A δ B := by
  obtain ⟨δ', hf, h1, h2, _⟩ := h.ends hA
  obtain rfl : δ' = δ := by have := hf.total_eq; linarith
  refine ⟨fun b hb => ?_, fun t ht => by rw [h2 t ht]⟩
  rcases h1 b hb with e | ⟨e, hi, hm⟩
  · rw [e]
  · exact .single ⟨hm, by rw [e]; exact hi, fun h => by rw [e] at h; exact lt_irrefl _ h.1⟩

theorem AIET.Valid.preSteps_inv {A : AIET P} (hA : A.Valid) {S : P → Prop} {x z : P} (h : Relation.ReflTransGen (A.inv.PreStep S) x z) :
    Relation.ReflTransGen (A.PostStep S) z x := by
  induction h with
  | refl => exact .refl
  | tail _ h ih => exact .head ⟨hA.maps_inv.mp h.1, hA.inner_inv h.1 h.2.1, h.2.2⟩ ih

theorem AIET.Valid.postSteps_inv {A : AIET P} (hA : A.Valid) {S : P → Prop} {x z : P} (h : Relation.ReflTransGen (A.inv.PostStep S) x z) :
    Relation.ReflTransGen (A.PreStep S) z x := by
  induction h with
  | refl => exact .refl
  | tail _ h ih => exact .head ⟨hA.maps_inv.mp h.1, hA.inner_inv h.1 h.2.1, h.2.2⟩ ih

theorem Prim.of_inv {A B : AIET P} (hA : A.Valid) (hB : B.Valid) {δ : P} (h : Prim A.inv δ B.inv) : Prim A δ B := by
  have e : Interior (δ, B.inv) = Interior (δ, B) := by funext x; simp only [Interior, hB.total_inv]
  refine ⟨fun b hb => ?_, fun t ht => ?_⟩
  · rw [← e]; exact hA.postSteps_inv (h.top b hb)
  · rw [← e]; exact hA.preSteps_inv (h.bot t ht)

theorem RauzyStep.prim {A B : AIET P} (hA : A.Valid) (h : RauzyStep A B) {δ : P} (hδ : B.total + δ = A.total) : Prim A δ B := by
  have hB : B.Valid := Steps.valid hA (.single h)
  rcases h with h | h
  · exact h.prim hA hδ
  · exact .of_inv hA hB (h.prim hA.inv (by rw [hA.total_inv, hB.total_inv, hδ]))

theorem Steps.prim {A B : AIET P} (hA : A.Valid) (h : Steps A B) : ∀ {δ : P}, B.total + δ = A.total → Prim A δ B := by
  induction h with
  | refl =>
    intro δ hδ
    obtain rfl : δ = 0 := by linarith
    exact ⟨fun b _ => by rw [add_zero], fun t _ => by rw [add_zero]⟩
  | @tail F G hr h ih =>
    intro δ hδ
    have hF := Steps.valid hA hr
    have h1 := ih (δ := A.total - F.total) (by ring)
    have h2 := h.prim hF (δ := F.total - G.total) (by ring)
    obtain ⟨w, hw⟩ := Steps.towers hA hr (δ := A.total - F.total) (by ring)
    obtain ⟨d, hg⟩ := h.geo hF
    have e := hg.fwd.total_eq
    have hd := hg.fwd.nonneg
    have hsub : ∀ z, Interior (δ, G) z → Interior (A.total - F.total, F) z := by
      rintro z ⟨k1, k2⟩
      simp only at k1 k2
      constructor <;> simp only <;> linarith
    have hsub' : ∀ z, Interior (δ, G) (z + (A.total - F.total)) → Interior (F.total - G.total, G) z := by
      rintro z ⟨k1, k2⟩
      simp only at k1 k2
      constructor <;> simp only <;> linarith
    constructor
    · intro b hb
      have k1 := preSteps_mono hsub (h1.bot b (hg.botPerm.mem_iff.mp hb))
      have k2 := hw.lift_pre (p := (A.total - F.total, F)) (by simp) hF (fun z hz => (hsub z hz).inside) hsub' (h2.bot b hb)
      have e' : G.rightBottom b + δ = G.rightBottom b + (F.total - G.total) + (A.total - F.total) := by linarith
      rw [e']
      exact k1.trans k2
    · intro t ht
      have k1 := postSteps_mono hsub (h1.top t (hg.topPerm.mem_iff.mp ht))
      have k2 := hw.lift_post (p := (A.total - F.total, F)) (by simp) hF (fun z hz => (hsub z hz).inside) hsub' (h2.top t ht)
      have e' : G.rightTop t + δ = G.rightTop t + (F.total - G.total) + (A.total - F.total) := by linarith
      rw [e']
      exact k2.trans k1

/-- The orbit of the left end of the piece is the orbit of an end point of an interval, i.e., the left end is zero, or it is on the orbit of an end point of
an interval of the bottom, or an end point of an interval of the top is on its orbit. -/
def LeftEnd (A : AIET P) (p : P × AIET P) : Prop :=
  p.1 = 0 ∨ (∃ b ∈ A.bottom.dropLast, Relation.ReflTransGen (A.PreStep (Interior p)) (A.rightBottom b) p.1) ∨
    ∃ t ∈ A.top.dropLast, Relation.ReflTransGen (A.PostStep (Interior p)) p.1 (A.rightTop t)

theorem LeftEnd.mono {A : AIET P} {p q : P × AIET P} (h : LeftEnd A p) (e : q.1 = p.1) (hS : ∀ z, Interior q z → Interior p z) : LeftEnd A q := by
  rcases h with h | ⟨b, hb, h⟩ | ⟨t, ht, h⟩
  · exact .inl (e.trans h)
  · exact .inr (.inl ⟨b, hb, by rw [e]; exact preSteps_mono hS h⟩)
  · exact .inr (.inr ⟨t, ht, by rw [e]; exact postSteps_mono hS h⟩)

theorem RauzyTop.left {A B : AIET P} (hA : A.Valid) (h : RauzyTop A B) {δ : P} (hδ : B.total + δ = A.total) :
    ∃ b ∈ A.bottom.dropLast, A.rightBottom b = δ := by
  obtain ⟨a, b, t, l₁, l₂, len, hlt⟩ := h
  have hs := hA.split
  refine ⟨b, ?_, ?_⟩
  · rw [List.dropLast_cons_of_ne_nil (by simp)]
    exact List.mem_cons_self
  · have ct := shorten_congr len (len b) hs.a_t
    simp only [AIET.rightBottom, off_cons_self, zero_add]
    simp only [AIET.total, sumLen_cons, sumLen_congr ct, shorten, if_true] at hδ
    linarith

theorem RauzyStep.left {A B : AIET P} (hA : A.Valid) (h : RauzyStep A B) {δ : P} (hδ : B.total + δ = A.total) :
    (∃ b ∈ A.bottom.dropLast, A.rightBottom b = δ) ∨ ∃ t ∈ A.top.dropLast, A.rightTop t = δ := by
  have hB : B.Valid := Steps.valid hA (.single h)
  rcases h with h | h
  · exact .inl (h.left hA hδ)
  · exact .inr (h.left hA.inv (by rw [hA.total_inv, hB.total_inv, hδ]))

/-- Induction only moves the left end to orbits of end points. -/
theorem Steps.left {A B : AIET P} (hA : A.Valid) (h : Steps A B) {δ : P} (hδ : B.total + δ = A.total) : LeftEnd A (δ, B) := by
  rcases Relation.ReflTransGen.cases_tail h with rfl | ⟨F, hr, h⟩
  · exact .inl (by simp only; linarith)
  have hF := Steps.valid hA hr
  have h1 := Steps.prim hA hr (δ := A.total - F.total) (by ring)
  obtain ⟨d', hg'⟩ := Steps.geo hA hr
  obtain ⟨d, hg⟩ := h.geo hF
  have e := hg.fwd.total_eq
  have hd := hg.fwd.nonneg
  have hsub : ∀ z, Interior (δ, B) z → Interior (A.total - F.total, F) z := by
    rintro z ⟨k1, k2⟩
    simp only at k1 k2
    constructor <;> simp only <;> linarith
  rcases h.left hF (δ := F.total - B.total) (by ring) with ⟨b, hb, e'⟩ | ⟨t, ht, e'⟩
  · refine .inr (.inl ⟨b, hg'.botPerm.mem_iff.mp hb, ?_⟩)
    have := preSteps_mono hsub (h1.bot b hb)
    rwa [e', show F.total - B.total + (A.total - F.total) = δ by linarith] at this
  · refine .inr (.inr ⟨t, hg'.topPerm.mem_iff.mp ht, ?_⟩)
    have := postSteps_mono hsub (h1.top t ht)
    rwa [e', show F.total - B.total + (A.total - F.total) = δ by linarith] at this

end Verif
