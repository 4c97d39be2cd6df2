import Verif.Proofs.World
import Verif.SpecItinerary
import Mathlib.Tactic.LinearCombination

/-!
# Pieces of an interval exchange transformation and end points of intervals
-/

namespace Verif

set_option linter.unusedSectionVars false

variable {P : Type} [CommRing P] [LinearOrder P] [IsStrictOrderedRing P]

/-! ### End points under induction -/

/-- `B` is the first return map of `A` to `[δ, total)`; the interior end points of the intervals of `B` are on the orbits of the
corresponding end points of `A`. -/
structure Geo (A : AIET P) (δ : P) (B : AIET P) : Prop where
  fwd : Fwd A δ B
  bot : ∀ b ∈ B.bottom.dropLast, Relation.ReflTransGen A.Maps (A.rightBottom b) (B.rightBottom b + δ)
  top : ∀ t ∈ B.top.dropLast, Relation.ReflTransGen A.Maps (B.rightTop t + δ) (A.rightTop t)
  botPerm : B.bottom.dropLast.Perm A.bottom.dropLast
  topPerm : B.top.dropLast.Perm A.top.dropLast

theorem Geo.refl {A : AIET P} (h : A.Valid) : Geo A 0 A :=
  ⟨.refl h, fun b _ => by rw [add_zero], fun t _ => by rw [add_zero], .refl _, .refl _⟩

theorem Fwd.reflTransGen_lift {E E' : AIET P} {δ : P} (h : Fwd E δ E') {x y : P} (hm : Relation.ReflTransGen E'.Maps x y) :
    Relation.ReflTransGen E.Maps (x + δ) (y + δ) := by
  induction hm with
  | refl => exact .refl
  | tail _ h' ih => exact ih.trans (h.transGen_lift (.single h')).to_reflTransGen

theorem Geo.trans {A B C : AIET P} {δ δ' : P} (h : Geo A δ B) (h' : Geo B δ' C) : Geo A (δ' + δ) C where
  fwd := h.fwd.trans h'.fwd
  bot b hb := by
    rw [← add_assoc]
    exact (h.bot b (h'.botPerm.mem_iff.mp hb)).trans (h.fwd.reflTransGen_lift (h'.bot b hb))
  top t ht := by
    rw [← add_assoc]
    exact (h.fwd.reflTransGen_lift (h'.top t ht)).trans (h.top t (h'.topPerm.mem_iff.mp ht))
  botPerm := h'.botPerm.trans h.botPerm
  topPerm := h'.topPerm.trans h.topPerm

theorem AIET.Valid.reflTransGen_inv {A : AIET P} (h : A.Valid) {x y : P} (hm : Relation.ReflTransGen A.inv.Maps x y) :
    Relation.ReflTransGen A.Maps y x := by
  induction hm with
  | refl => exact .refl
  | tail _ h' ih => exact .head (h.maps_inv.mp h') ih

theorem Geo.of_inv {A B : AIET P} {δ : P} (h : Geo A.inv δ B.inv) : Geo A δ B where
  fwd := h.fwd.of_inv
  bot b hb := h.fwd.of_inv.valid.reflTransGen_inv (h.top b hb)
  top t ht := h.fwd.of_inv.valid.reflTransGen_inv (h.bot t ht)
  botPerm := h.topPerm
  topPerm := h.botPerm

/-- The end points of the intervals during Rauzy induction. -/
theorem RauzyTop.ends {A B : AIET P} (hA : A.Valid) (h : RauzyTop A B) : ∃ δ, Fwd A δ B ∧
    (∀ b ∈ B.bottom.dropLast, A.rightBottom b = B.rightBottom b + δ ∨
      (A.rightBottom b = δ ∧ A.Inner δ ∧ A.Maps (A.rightBottom b) (B.rightBottom b + δ))) ∧
    (∀ t ∈ B.top.dropLast, A.rightTop t = B.rightTop t + δ) ∧ B.bottom.dropLast.Perm A.bottom.dropLast ∧
    B.top.dropLast.Perm A.top.dropLast := by
  obtain ⟨_, _, hf⟩ := h.fwd hA
  generalize A.len _ = δ at hf
  refine ⟨δ, ?_⟩
  obtain ⟨a, b, t, l₁, l₂, len, hlt⟩ := h
  have hs := hA.split
  have ct := shorten_congr len (len b) hs.a_t
  have c1 := shorten_congr len (len b) hs.a_l₁
  have c2 := shorten_congr len (len b) hs.a_l₂
  have hδ : δ = len b := by
    have := hf.total_eq
    simp only [AIET.total, sumLen_cons, shorten_eq, sumLen_congr ct] at this
    linarith
  subst hδ
  have hb0 : 0 < len b := hA.pos b (List.mem_cons_of_mem _ hs.b_t)
  refine ⟨hf, ?_, ?_, ?_, .refl _⟩
  · intro x hx
    rw [List.dropLast_append_cons, List.dropLast_cons_cons] at hx
    simp only [List.mem_append, List.mem_cons] at hx
    by_cases hxb : x = b
    · subst hxb
      right
      refine ⟨by simp only [AIET.rightBottom, off_cons_self, zero_add], ⟨a, by simp, ?_, ?_⟩, a, by simp, ?_, ?_, ?_⟩
      · simp only [off_cons_self]; exact hb0
      · simp only [off_cons_self]; linarith
      · simp only [AIET.rightBottom, off_cons_self]; linarith
      · simp only [AIET.rightBottom, off_cons_self]; linarith
      · simp only [AIET.rightBottom, off_cons_self]
        rw [hs.off'_b, hs.off_a, sumLen_congr c1, shorten_ne _ _ hs.b_a]; linarith
    · have e : (⟨a :: t, b :: (l₁ ++ a :: l₂), len⟩ : AIET P).rightBottom x =
          (⟨a :: t, l₁ ++ b :: a :: l₂, shorten len a (len b)⟩ : AIET P).rightBottom x + len b := by
        by_cases hxa : x = a
        · subst hxa
          simp only [AIET.rightBottom]
          rw [hs.off'_a, hs.off_a, sumLen_congr c1, shorten_ne _ _ hs.b_a, shorten_eq]; linarith
        · by_cases hx₁ : x ∈ l₁
          · simp only [AIET.rightBottom]
            rw [hs.off'_l₁ _ hx₁, hs.off_l₁ _ hx₁, off_congr c1, shorten_ne _ _ hxa]; linarith
          · have hx₂ : x ∈ l₂ := by
              rcases hx with h | h | h
              · exact absurd h hx₁
              · exact absurd h hxb
              · have := List.mem_of_mem_dropLast h
                simpa [hxa] using this
            simp only [AIET.rightBottom]
            rw [hs.off'_l₂ _ hx₁ hx₂, hs.off_l₂ _ hx₁ hx₂, off_congr c2, shorten_ne _ _ hxa, sumLen_congr c1, shorten_ne _ _ hs.b_a,
              shorten_eq]; linarith
      exact Or.inl e
  · intro x hx
    have e : (⟨a :: t, b :: (l₁ ++ a :: l₂), len⟩ : AIET P).rightTop x =
          (⟨a :: t, l₁ ++ b :: a :: l₂, shorten len a (len b)⟩ : AIET P).rightTop x + len b := by
      by_cases hxa : x = a
      · subst hxa
        simp only [AIET.rightTop, off_cons_self, shorten_eq]; linarith
      · have hxt : x ∈ t := by
          have := List.mem_of_mem_dropLast hx
          simpa [hxa] using this
        simp only [AIET.rightTop]
        rw [hs.off_t _ hxt, hs.off_t _ hxt, shorten_eq, off_congr ct, shorten_ne _ _ hxa]; linarith
    exact e
  · rw [List.dropLast_append_cons, List.dropLast_cons_cons, ← List.cons_append, List.dropLast_append_cons, List.cons_append]
    exact List.perm_middle

theorem RauzyTop.geo {A B : AIET P} (hA : A.Valid) (h : RauzyTop A B) : ∃ δ, Geo A δ B := by
  obtain ⟨δ, hf, h1, h2, h3, h4⟩ := h.ends hA
  refine ⟨δ, hf, fun b hb => ?_, fun t ht => by rw [h2 t ht], h3, h4⟩
  rcases h1 b hb with e | ⟨_, _, hm⟩
  · rw [e]
  · exact .single hm

theorem RauzyStep.geo {A B : AIET P} (hA : A.Valid) (h : RauzyStep A B) : ∃ δ, Geo A δ B := by
  rcases h with h | h
  · exact h.geo hA
  · obtain ⟨δ, hδ⟩ := h.geo hA.inv
    exact ⟨δ, hδ.of_inv⟩

theorem Steps.geo {A B : AIET P} (hA : A.Valid) (h : Steps A B) : ∃ δ, Geo A δ B := by
  induction h with
  | refl => exact ⟨0, .refl hA⟩
  | tail hr h ih =>
    obtain ⟨δ, hδ⟩ := ih
    obtain ⟨δ', hδ'⟩ := h.geo hδ.fwd.valid'
    exact ⟨_, hδ.trans hδ'⟩

/-- What happens to end points when a label is eliminated. -/
structure MergeGeo (A : AIET P) (t b : Label) (δ : P) (C : AIET P) : Prop where
  fwd : Fwd A δ C
  atTop : A.rightTop t = δ
  atBot : A.rightBottom b = δ
  top_eq : A.top.dropLast = t :: C.top.dropLast
  mem_bot : b ∈ A.bottom.dropLast
  bot : ∀ x ∈ C.bottom.dropLast, (if x = b then t else x) ∈ A.bottom.dropLast ∧
    A.rightBottom (if x = b then t else x) = C.rightBottom x + δ
  top : ∀ x ∈ C.top.dropLast, A.rightTop x = C.rightTop x + δ
  perm : ∀ f : Label → Label, (C.bottom.dropLast.map (fun x => if x = b then f t else f x) ++ [f b]).Perm (A.bottom.dropLast.map f)

theorem MergeTop.geo {A C : AIET P} (hA : A.Valid) (h : MergeTop A C) {t b : Label} (ht : A.top.head? = some t)
    (hb : A.bottom.head? = some b) : ∃ δ, MergeGeo A t b δ C := by
  obtain ⟨_, _, hf⟩ := h.fwd hA
  generalize A.len _ = δ at hf
  refine ⟨δ, ?_⟩
  obtain ⟨t', b', top, l₁, l₂, len, heq⟩ := h
  simp only [List.head?_cons, Option.some.injEq] at ht hb
  subst ht hb
  have hs := hA.split
  have hne : top ≠ [] := by rintro rfl; simpa using hs.b_t
  have hδ : δ = len t' := by
    have := hf.total_eq
    simp only [AIET.total, sumLen_cons] at this
    linarith
  subst hδ
  refine ⟨hf, ?_, ?_, ?_, ?_, ?_, ?_, ?_⟩
  · simp [AIET.rightTop]
  · simp [AIET.rightBottom, heq]
  · exact List.dropLast_cons_of_ne_nil hne
  · rw [← List.cons_append, List.dropLast_append_cons]; simp
  · intro x hx
    rw [List.dropLast_append_cons] at hx
    have hx' := hx
    rw [List.mem_append] at hx
    rw [show b' :: (l₁ ++ t' :: l₂) = (b' :: l₁) ++ t' :: l₂ from rfl, List.dropLast_append_cons]
    by_cases hxb : x = b'
    · subst hxb
      rw [if_pos rfl]
      have hl₂ : l₂ ≠ [] := by
        rintro rfl
        rcases hx with h | h
        · exact hs.b_l₁ h
        · simp at h
      refine ⟨by rw [List.dropLast_cons_of_ne_nil hl₂]; simp, ?_⟩
      simp only [AIET.rightBottom]
      rw [List.cons_append, hs.off_a, hs.off''_b, heq]; ring
    · rw [if_neg hxb]
      by_cases hx₁ : x ∈ l₁
      · refine ⟨by simp [hx₁], ?_⟩
        simp only [AIET.rightBottom]
        rw [List.cons_append, hs.off_l₁ _ hx₁, hs.off''_l₁ _ hx₁, heq]; ring
      · have hl₂ : l₂ ≠ [] := by
          rintro rfl
          rcases hx with h | h
          · exact hx₁ h
          · simp at h
        rw [List.dropLast_cons_of_ne_nil hl₂] at hx ⊢
        have hx₂ : x ∈ l₂.dropLast := by simpa [hx₁, hxb] using hx
        refine ⟨by simp [hx₂], ?_⟩
        have hx₃ := List.mem_of_mem_dropLast hx₂
        simp only [AIET.rightBottom]
        rw [List.cons_append, hs.off_l₂ _ hx₁ hx₃, hs.off''_l₂ _ hx₁ hx₃, heq]; ring
  · intro x hx
    have hx' := List.mem_of_mem_dropLast hx
    simp only [AIET.rightTop]
    rw [hs.off_t _ hx']; ring
  · intro f
    have g : ∀ l : List Label, b' ∉ l → l.map (fun x => if x = b' then f t' else f x) = l.map f := by
      intro l hl
      apply List.map_congr_left
      intro x hx
      rw [if_neg (nm hl hx).symm]
    simp only
    rw [show b' :: (l₁ ++ t' :: l₂) = (b' :: l₁) ++ t' :: l₂ from rfl, List.dropLast_append_cons, List.dropLast_append_cons, List.map_append, List.map_append, g l₁ hs.b_l₁]
    by_cases hl₂ : l₂ = []
    · subst hl₂
      simp only [List.dropLast_singleton, List.map_nil, List.append_nil, List.map_cons]
      exact (List.perm_append_comm).trans (by simp)
    · rw [List.dropLast_cons_of_ne_nil hl₂, List.dropLast_cons_of_ne_nil hl₂]
      simp only [List.map_cons, if_true]
      rw [g l₂.dropLast (fun h => hs.b_l₂ (List.mem_of_mem_dropLast h))]
      exact (List.perm_append_comm).trans (by simp)

/-- What happens to end points in a reduction. -/
structure CutGeo (A l r : AIET P) (t b : Label) : Prop where
  atTop : A.rightTop t = l.total
  atBot : A.rightBottom b = l.total
  topEq : A.top.dropLast = l.top.dropLast ++ t :: r.top.dropLast
  botEq : A.bottom.dropLast = l.bottom.dropLast ++ b :: r.bottom.dropLast
  botL : ∀ x ∈ l.bottom.dropLast, A.rightBottom x = l.rightBottom x
  topL : ∀ x ∈ l.top.dropLast, A.rightTop x = l.rightTop x
  botR : ∀ x ∈ r.bottom.dropLast, A.rightBottom x = r.rightBottom x + l.total
  topR : ∀ x ∈ r.top.dropLast, A.rightTop x = r.rightTop x + l.total

theorem cut_aux (len : Label → P) {l₁ l₂ : List Label} (h : (l₁ ++ l₂).Nodup) {x : Label} (hx : l₁.getLast? = some x) (h₂ : l₂ ≠ []) :
    off len (l₁ ++ l₂) x + len x = sumLen len l₁ ∧ (l₁ ++ l₂).dropLast = l₁.dropLast ++ x :: l₂.dropLast ∧
      (∀ y ∈ l₁.dropLast, off len (l₁ ++ l₂) y = off len l₁ y) ∧
      ∀ y ∈ l₂.dropLast, off len (l₁ ++ l₂) y = off len l₂ y + sumLen len l₁ := by
  obtain ⟨l, rfl⟩ : ∃ l, l₁ = l ++ [x] := by
    rw [List.getLast?_eq_some_iff] at hx
    exact hx
  have hxl : x ∉ l := by
    rw [List.append_assoc, List.nodup_append] at h
    intro hc
    exact h.2.2 x hc x (by simp) rfl
  refine ⟨?_, ?_, ?_, ?_⟩
  · rw [List.append_assoc, off_append_right _ hxl, sumLen_append]
    simp
  · rw [List.dropLast_append_of_ne_nil h₂]; simp
  · intro y hy
    exact off_append_left _ (List.mem_of_mem_dropLast hy) _
  · intro y hy
    have : y ∉ l ++ [x] := by
      rw [List.nodup_append] at h
      intro hc
      exact h.2.2 y hc y (List.mem_of_mem_dropLast hy) rfl
    rw [off_append_right _ this, add_comm]

theorem IsCut.geo {A l r : AIET P} {k : ℕ} (hA : A.Valid) (h : IsCut A l r k) {t b : Label} (ht : l.top.getLast? = some t)
    (hb : l.bottom.getLast? = some b) : CutGeo A l r t b := by
  have hl := h.valid_left hA
  have hr := h.valid_right hA
  have htot := hl.total_inv
  have e1 := h.left_eq
  have e2 := h.right_eq
  obtain ⟨ltop, lbot, llen⟩ := l
  obtain ⟨rtop, rbot, rlen⟩ := r
  simp only [AIET.mk.injEq] at e1 e2
  obtain ⟨f1, f2, rfl⟩ := e1
  obtain ⟨f3, f4, rfl⟩ := e2
  have ht1 : A.top = ltop ++ rtop := by rw [f1, f3, List.take_append_drop]
  have hb1 : A.bottom = lbot ++ rbot := by rw [f2, f4, List.take_append_drop]
  obtain ⟨g1, g2, g3, g4⟩ := cut_aux A.len (ht1 ▸ hA.nodup) ht hr.ne_nil
  obtain ⟨k1, k2, k3, k4⟩ := cut_aux A.len (l₁ := lbot) (l₂ := rbot) (hb1 ▸ hA.nodup_bottom) hb (show rbot ≠ [] from hr.inv.ne_nil)
  have htot' : sumLen A.len lbot = sumLen A.len ltop := htot
  refine ⟨?_, ?_, ?_, ?_, ?_, ?_, ?_, ?_⟩
  · simp only [AIET.rightTop, AIET.total, ht1]; exact g1
  · simp only [AIET.rightBottom, AIET.total, hb1]; rw [← htot']; exact k1
  · rw [ht1]; exact g2
  · rw [hb1]; exact k2
  · intro x hx; simp only [AIET.rightBottom, hb1]; rw [k3 x hx]
  · intro x hx; simp only [AIET.rightTop, ht1]; rw [g3 x hx]
  · intro x hx; simp only [AIET.rightBottom, AIET.total, hb1]; rw [k4 x hx, htot']; ring
  · intro x hx; simp only [AIET.rightTop, AIET.total, ht1]; rw [g4 x hx]; ring

/-! ### Pieces -/

section covers

variable {A₀ : AIET P}

theorem Inside.of_fwd {A B : AIET P} {δ o : P} (h : Fwd A δ B) {z : P} (hz : Inside (o + δ, B) z) : Inside (o, A) z := by
  have := h.total_eq
  have := h.nonneg
  obtain ⟨h1, h2⟩ := hz
  simp only at h1 h2
  exact ⟨by simp only; linarith, by simp only; linarith⟩

theorem Covers.init (h : A₀.Valid) : Covers A₀ [(0, A₀)] where
  valid := by simpa using h
  inside := by simp
  maps := by
    simp only [List.mem_singleton, forall_eq, add_zero]
    intro x y h0 h1
    constructor
    · intro hm
      obtain ⟨r1, r2⟩ := h.maps_range hm
      exact .now hm ⟨r1, by simp only; linarith⟩
    · intro hm
      cases hm with
      | now h _ => exact h
      | later h' hn _ =>
        obtain ⟨r1, r2⟩ := h.maps_range h'
        exact absurd ⟨r1, by simp only; linarith⟩ hn
  meets x h0 h1 := ⟨_, List.mem_singleton.mpr rfl, x, .refl, h0, by simp only; linarith⟩
  separate := List.pairwise_singleton _ _

theorem Covers.lift {pieces : List (P × AIET P)} (h : Covers A₀ pieces) {o : P} {A : AIET P} (hp : (o, A) ∈ pieces) {x y : P}
    (hm : Relation.ReflTransGen A.Maps x y) : Relation.ReflTransGen A₀.Maps (x + o) (y + o) := by
  induction hm with
  | refl => exact .refl
  | tail _ h' ih =>
    have hv := h.valid _ hp
    obtain ⟨h0, h1⟩ := hv.maps_dom h'
    exact ih.trans (((h.maps _ hp _ _ h0 h1).mp h').transGen.to_reflTransGen)

/-- The maps of a smaller piece. -/
theorem Covers.maps_fwd {pieces : List (P × AIET P)} (h₀ : A₀.Valid) (h : Covers A₀ pieces) {o δ : P} {A B : AIET P} (hp : (o, A) ∈ pieces)
    (hf : Fwd A δ B) {x y : P} (h0 : 0 ≤ x) (h1 : x < B.total) :
    B.Maps x y ↔ FirstReturn A₀.Maps (Inside (o + δ, B)) (x + (o + δ)) (y + (o + δ)) := by
  have hA := h.valid _ hp
  have hlift : ∀ u v, FirstReturn A.Maps (fun z => δ ≤ z) u v → FirstReturn A₀.Maps (Inside (o + δ, B)) (u + o) (v + o) := by
    intro u v huv
    have htot := hf.total_eq
    induction huv with
    | @now u v h' hv =>
      obtain ⟨q0, q1⟩ := hA.maps_dom h'
      obtain ⟨r0, r1⟩ := hA.maps_range h'
      refine FirstReturn.now' (fun z => Inside.of_fwd hf) ((h.maps _ hp u v q0 q1).mp h') ⟨by simp only; linarith, by simp only; linarith⟩
    | @later u w v h' hw _ ih =>
      obtain ⟨q0, q1⟩ := hA.maps_dom h'
      refine FirstReturn.later' (fun z => Inside.of_fwd hf) ((h.maps _ hp u w q0 q1).mp h') ?_ ih
      rintro ⟨i1, i2⟩
      simp only at i1
      exact hw (by linarith)
  have one : ∀ y, B.Maps x y → FirstReturn A₀.Maps (Inside (o + δ, B)) (x + (o + δ)) (y + (o + δ)) := by
    intro y hm
    have := hlift _ _ (hf.fwd x y hm)
    rwa [add_assoc, add_assoc, add_comm δ o] at this
  constructor
  · exact one y
  · intro hm
    obtain ⟨y', hy'⟩ := hf.valid'.maps_total h0 h1
    have := (one y' hy').unique h₀.maps_fun hm
    have : y' = y := by linarith
    exact this ▸ hy'

theorem Covers.set_fwd {pieces : List (P × AIET P)} (h₀ : A₀.Valid) (h : Covers A₀ pieces) {i : ℕ} {o δ : P} {A B : AIET P}
    (hp : pieces[i]? = some (o, A)) (hf : Fwd A δ B) : Covers A₀ (pieces.set i (o + δ, B)) := by
  have hmem := List.mem_of_getElem? hp
  have htot := hf.total_eq
  have hnn := hf.nonneg
  have hi : i < pieces.length := (List.getElem?_eq_some_iff.mp hp).1
  refine ⟨?_, ?_, ?_, ?_, ?_⟩
  · intro p hp'
    rcases List.mem_or_eq_of_mem_set hp' with h' | rfl
    · exact h.valid p h'
    · exact hf.valid'
  · intro p hp'
    rcases List.mem_or_eq_of_mem_set hp' with h' | rfl
    · exact h.inside p h'
    · have := h.inside _ hmem
      simp only at this ⊢
      exact ⟨by linarith, by linarith⟩
  · intro p hp' x y h0 h1
    rcases List.mem_or_eq_of_mem_set hp' with h' | rfl
    · exact h.maps p h' x y h0 h1
    · exact h.maps_fwd h₀ hmem hf h0 h1
  · intro x h0 h1
    obtain ⟨p, hp', y, hy, hin⟩ := h.meets x h0 h1
    obtain ⟨j, hj⟩ := List.mem_iff_getElem?.mp hp'
    by_cases hij : i = j
    · subst hij
      rw [hp] at hj
      cases hj
      simp only [Inside] at hin
      obtain ⟨w, hw, hw'⟩ := hf.hits (y - o) (by linarith) (by linarith)
      have hl := h.lift hmem hw
      rw [sub_add_cancel] at hl
      refine ⟨_, List.mem_set hi _, w + o, hy.trans hl, by simp only; linarith, ?_⟩
      simp only
      rcases Relation.reflTransGen_iff_eq_or_transGen.mp hw with rfl | hw2
      · linarith
      · obtain ⟨z, _, hz⟩ := (Relation.TransGen.tail'_iff).mp hw2
        have := (hf.valid.maps_range hz).2
        linarith
    · exact ⟨p, List.mem_iff_getElem?.mpr ⟨j, by rw [List.getElem?_set_ne hij]; exact hj⟩, y, hy, hin⟩
  · refine pairwise_set (fun a b hab x y hx hy => (hab y x hy hx).symm) h.separate hp ?_
    intro z hz x y hx hy
    exact hz x y (Inside.of_fwd hf hx) hy

theorem IsCut.inside_left {A l r : AIET P} {k : ℕ} (hA : A.Valid) (h : IsCut A l r k) {o z : P} (hz : Inside (o, l) z) : Inside (o, A) z := by
  have := h.total_eq hA
  have := (h.valid_right hA).total_pos
  obtain ⟨h1, h2⟩ := hz
  simp only at h1 h2
  exact ⟨h1, by simp only; linarith⟩

theorem IsCut.inside_right {A l r : AIET P} {k : ℕ} (hA : A.Valid) (h : IsCut A l r k) {o z : P} (hz : Inside (o + l.total, r) z) :
    Inside (o, A) z := by
  have := h.total_eq hA
  have := (h.valid_left hA).total_pos
  obtain ⟨h1, h2⟩ := hz
  simp only at h1 h2
  exact ⟨by simp only; linarith, by simp only; linarith⟩

theorem IsCut.maps_side {A l r : AIET P} {k : ℕ} (hA : A.Valid) (h : IsCut A l r k) {x y : P} (hm : A.Maps x y) :
    x < l.total ↔ y < l.total := by
  have hl := h.valid_left hA
  have hr := h.valid_right hA
  constructor
  · intro hx
    exact (hl.maps_range ((h.maps_left hA hx).mp hm)).2
  · intro hy
    by_contra hx
    push Not at hx
    have hm' : A.Maps ((x - l.total) + l.total) ((y - l.total) + l.total) := by simpa using hm
    have := (hr.maps_range ((h.maps_right hA (by linarith)).mp hm')).1
    linarith

theorem IsCut.transGen_side {A l r : AIET P} {k : ℕ} (hA : A.Valid) (h : IsCut A l r k) {x y : P} (hm : Relation.TransGen A.Maps x y) :
    x < l.total ↔ y < l.total := by
  induction hm with
  | single h' => exact h.maps_side hA h'
  | tail _ h' ih => rw [ih]; exact h.maps_side hA h'

/-- An orbit of the original between points of a piece is an orbit of the piece. -/
theorem Covers.transGen_piece {pieces : List (P × AIET P)} (h : Covers A₀ pieces) {o : P} {A : AIET P} (hp : (o, A) ∈ pieces) {x y : P}
    (hx : Inside (o, A) x) (hy : Inside (o, A) y) (hm : Relation.TransGen A₀.Maps x y) : Relation.TransGen A.Maps (x - o) (y - o) := by
  have h1 := transGen_firstReturn (S := Inside (o, A)) hm hy
  clear hm hy
  induction h1 with
  | single h' =>
    refine .single ((h.maps _ hp _ _ ?_ ?_).mpr ?_)
    · simp only [Inside] at hx; linarith
    · simp only [Inside] at hx ⊢; linarith
    · simpa using h'
  | @tail b c h2 h' ih =>
    have hb : Inside (o, A) b := by
      obtain ⟨w, _, hw⟩ := (Relation.TransGen.tail'_iff).mp h2
      exact hw.mem
    refine ih.tail ((h.maps _ hp _ _ ?_ ?_).mpr ?_)
    · simp only [Inside] at hb; linarith
    · simp only [Inside] at hb ⊢; linarith
    · simpa using h'

theorem Covers.cut {pieces : List (P × AIET P)} (h₀ : A₀.Valid) (h : Covers A₀ pieces) {i : ℕ} {o : P} {A l r : AIET P} {k : ℕ}
    (hp : pieces[i]? = some (o, A)) (hc : IsCut A l r k) : Covers A₀ (pieces.set i (o, l) ++ [(o + l.total, r)]) := by
  have hmem := List.mem_of_getElem? hp
  have hA := h.valid _ hmem
  simp only at hA
  have hl := hc.valid_left hA
  have hr := hc.valid_right hA
  have htot := hc.total_eq hA
  have hi : i < pieces.length := (List.getElem?_eq_some_iff.mp hp).1
  have hlp := hl.total_pos
  have hrp := hr.total_pos
  have cases' : ∀ p ∈ pieces.set i (o, l) ++ [(o + l.total, r)], (p = (o + l.total, r) ∨ p = (o, l)) ∨ ∃ j, j ≠ i ∧ pieces[j]? = some p := by
    intro p hp
    rw [List.mem_append, List.mem_singleton] at hp
    rcases hp with hp | hp
    · rcases mem_set_iff_ne hp with h | h
      · exact .inl (.inr h)
      · exact .inr h
    · exact .inl (.inl hp)
  refine ⟨?_, ?_, ?_, ?_, ?_⟩
  · intro p hp'
    rcases cases' p hp' with (rfl | rfl) | ⟨j, _, hj⟩
    · exact hr
    · exact hl
    · exact h.valid p (List.mem_of_getElem? hj)
  · intro p hp'
    have hin := h.inside _ hmem
    simp only at hin
    rcases cases' p hp' with (rfl | rfl) | ⟨j, _, hj⟩
    · exact ⟨by simp only; linarith, by simp only; linarith⟩
    · exact ⟨by simp only; linarith, by simp only; linarith⟩
    · exact h.inside p (List.mem_of_getElem? hj)
  · intro p hp' x y h0 h1
    rcases cases' p hp' with (rfl | rfl) | ⟨j, _, hj⟩
    · simp only at h1 ⊢
      have one : ∀ y, r.Maps x y → FirstReturn A₀.Maps (Inside (o + l.total, r)) (x + (o + l.total)) (y + (o + l.total)) := by
        intro y hm
        obtain ⟨r0, r1⟩ := hr.maps_range hm
        have h' := (h.maps _ hmem _ _ (by linarith) (by simp only; linarith)).mp ((hc.maps_right hA h0).mpr hm)
        have := h'.now' (S' := Inside (o + l.total, r)) (fun z => hc.inside_right hA) ⟨by simp only; linarith, by simp only; linarith⟩
        rwa [add_assoc, add_assoc, add_comm l.total o] at this
      constructor
      · exact one y
      · intro hm
        obtain ⟨y', hy'⟩ := hr.maps_total h0 h1
        have := (one y' hy').unique h₀.maps_fun hm
        have : y' = y := by linarith
        exact this ▸ hy'
    · simp only at h1 ⊢
      have one : ∀ y, l.Maps x y → FirstReturn A₀.Maps (Inside (o, l)) (x + o) (y + o) := by
        intro y hm
        obtain ⟨r0, r1⟩ := hl.maps_range hm
        have h' := (h.maps _ hmem _ _ h0 (by simp only; linarith)).mp ((hc.maps_left hA h1).mpr hm)
        exact h'.now' (fun z => hc.inside_left hA) ⟨by simp only; linarith, by simp only; linarith⟩
      constructor
      · exact one y
      · intro hm
        obtain ⟨y', hy'⟩ := hl.maps_total h0 h1
        have := (one y' hy').unique h₀.maps_fun hm
        have : y' = y := by linarith
        exact this ▸ hy'
    · exact h.maps p (List.mem_of_getElem? hj) x y h0 h1
  · intro x h0 h1
    obtain ⟨p, hp', y, hy, hin⟩ := h.meets x h0 h1
    obtain ⟨j, hj⟩ := List.mem_iff_getElem?.mp hp'
    by_cases hij : i = j
    · subst hij
      rw [hp] at hj
      cases hj
      simp only [Inside] at hin
      by_cases hyl : y < o + l.total
      · exact ⟨(o, l), List.mem_append_left _ (List.mem_set hi _), y, hy, hin.1, hyl⟩
      · exact ⟨(o + l.total, r), by simp, y, hy, not_lt.mp hyl, by simp only; linarith⟩
    · exact ⟨p, List.mem_append_left _ (List.mem_iff_getElem?.mpr ⟨j, by rw [List.getElem?_set_ne hij]; exact hj⟩), y, hy, hin⟩
  · rw [List.pairwise_append]
    refine ⟨?_, List.pairwise_singleton _ _, ?_⟩
    · refine pairwise_set (fun a b hab x y hx hy => (hab y x hy hx).symm) h.separate hp ?_
      intro z hz x y hx hy
      exact hz x y (hc.inside_left hA hx) hy
    · intro p hp' q hq
      rw [List.mem_singleton] at hq
      subst hq
      rcases mem_set_iff_ne hp' with rfl | ⟨j, hji, hj⟩
      · have key : ∀ x y, Relation.ReflTransGen A₀.Maps x y → Inside (o, A) x → Inside (o, A) y → (x < o + l.total ↔ y < o + l.total) := by
          intro x y hm hx hy
          rcases Relation.reflTransGen_iff_eq_or_transGen.mp hm with rfl | hm'
          · rfl
          · have := hc.transGen_side hA (h.transGen_piece hmem hx hy hm')
            constructor
            · intro hh; have := this.mp (by linarith); linarith
            · intro hh; have := this.mpr (by linarith); linarith
        intro x y hx hy
        have hxA := hc.inside_left hA hx
        have hyA := hc.inside_right hA hy
        simp only [Inside] at hx hy
        constructor
        · intro hm
          have := (key x y hm hxA hyA).mp hx.2
          linarith
        · intro hm
          have := (key y x hm hyA hxA).mpr hx.2
          linarith
      · have hR := pairwise_getElem_ne (fun a b hab x y hx hy => (hab y x hy hx).symm) h.separate hj hp hji
        intro x y hx hy
        exact hR x y hx (hc.inside_right hA hy)

/-- Pieces that agree on their labels describe the same dynamics. -/
theorem Covers.congr {pieces pieces' : List (P × AIET P)} (h : Covers A₀ pieces)
    (hc : List.Forall₂ (fun p q => p.1 = q.1 ∧ p.2.Agree q.2) pieces pieces') : Covers A₀ pieces' := by
  have key : ∀ q ∈ pieces', ∃ p ∈ pieces, p.1 = q.1 ∧ p.2.Agree q.2 := by
    intro q hq
    obtain ⟨i, hi⟩ := List.mem_iff_getElem.mp hq
    obtain ⟨hi1, hi2⟩ := hi
    have h1 := hc.length_eq
    have := hc.get (i := i) (by omega) hi1
    exact ⟨_, List.getElem_mem _, by simpa [hi2] using this⟩
  have ins : ∀ (p q : P × AIET P), p.1 = q.1 ∧ p.2.Agree q.2 → Inside p = Inside q := by
    rintro ⟨o, A⟩ ⟨o', A'⟩ ⟨rfl, h2⟩
    funext z
    simp only [Inside, h2.total]
  refine ⟨?_, ?_, ?_, ?_, ?_⟩
  · intro q hq
    obtain ⟨p, hp, _, h2⟩ := key q hq
    exact h2.valid (h.valid p hp)
  · intro q hq
    obtain ⟨p, hp, h1, h2⟩ := key q hq
    rw [← h1, ← h2.total]
    exact h.inside p hp
  · intro q hq x y h0 h1
    obtain ⟨p, hp, g1, g2⟩ := key q hq
    rw [← ins p q ⟨g1, g2⟩, ← g1, ← g2.maps (h.valid p hp)]
    exact h.maps p hp x y h0 (by rw [g2.total]; exact h1)
  · intro x h0 h1
    obtain ⟨p, hp, y, hy, hin⟩ := h.meets x h0 h1
    obtain ⟨i, hi1, hi2⟩ := List.mem_iff_getElem.mp hp
    have hle := hc.length_eq
    have hi3 : i < pieces'.length := by omega
    have := hc.get (i := i) hi1 hi3
    simp only [List.get_eq_getElem] at this
    rw [hi2] at this
    exact ⟨_, List.getElem_mem hi3, y, hy, by rw [← ins _ _ this]; exact hin⟩
  · have hsep := h.separate
    rw [List.pairwise_iff_getElem] at hsep ⊢
    intro i j hi hj hij x y hx hy
    have hle := hc.length_eq
    have h1 := hc.get (i := i) (by omega) hi
    have h2 := hc.get (i := j) (by omega) hj
    refine hsep i j (by omega) (by omega) hij x y ?_ ?_
    · have e := ins _ _ h1
      simp only [List.get_eq_getElem] at e
      rw [e]; exact hx
    · have e := ins _ _ h2
      simp only [List.get_eq_getElem] at e
      rw [e]; exact hy

end covers

end Verif
