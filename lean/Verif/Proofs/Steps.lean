import Verif.Proofs.Saf
import Mathlib.Algebra.Order.Hom.Monoid

/-!
# Sequences of elementary steps, changing the ring of points, and agreement of IETs
-/

namespace Verif

set_option linter.unusedSectionVars false

/-! ### First returns of the inverse -/

theorem FirstReturn.flip_aux {P : Type} {R R' : P → P → Prop} {S : P → Prop} (hR : ∀ x y, R x y → R' y x) {z b : P}
    (h : FirstReturn R S z b) : ∀ w, FirstReturn R' S z w → ¬ S z → FirstReturn R' S b w := by
  induction h with
  | now h _ => intro w hw hz; exact .later (hR _ _ h) hz hw
  | later h hs _ ih => intro w hw hz; exact ih w (.later (hR _ _ h) hz hw) hs

theorem FirstReturn.flip {P : Type} {R R' : P → P → Prop} {S : P → Prop} (hR : ∀ x y, R x y → R' y x) {a b : P}
    (h : FirstReturn R S a b) (ha : S a) : FirstReturn R' S b a := by
  cases h with
  | now h _ => exact .now (hR _ _ h) ha
  | later h hs h' => exact h'.flip_aux hR a (.now (hR _ _ h) ha) hs

section

variable {P : Type} [CommRing P] [LinearOrder P] [IsStrictOrderedRing P]

@[simp] theorem AIET.inv_inv (E : AIET P) : E.inv.inv = E := rfl

theorem Fwd.inv {E E' : AIET P} {δ : P} (h : Fwd E δ E') : Fwd E.inv δ E'.inv where
  valid := h.valid.inv
  valid' := h.valid'.inv
  nonneg := h.nonneg
  total_eq := by rw [h.valid.total_inv, h.valid'.total_inv, h.total_eq]
  fwd x y hm := by
    have hm' := h.valid'.maps_inv.mp hm
    have := h.fwd _ _ hm'
    have hd := h.valid'.maps_dom hm'
    exact this.flip (fun x y hxy => h.valid.maps_inv.mpr hxy) (by linarith [hd.1])
  hits x h0 h1 := by
    rw [h.valid.total_inv] at h1
    -- the forward orbit of any point that is in the sub-interval comes back
    obtain ⟨y₀, hy₀, hδ₀⟩ := h.hits x h0 h1
    -- follow the path backwards
    have key : ∀ y, Relation.ReflTransGen E.Maps x y → δ ≤ y → ∃ z, Relation.ReflTransGen E.inv.Maps x z ∧ δ ≤ z := by
      intro y hy
      clear hy₀
      induction hy using Relation.ReflTransGen.head_induction_on with
      | refl => intro hδ; exact ⟨y, .refl, hδ⟩
      | @head a c hac _ ih =>
        intro hδ
        -- `a → c`, and the backward orbit of `c` meets the sub-interval
        have hcd := h.valid.maps_range hac
        have had := h.valid.maps_dom hac
        obtain ⟨z, hz, hzδ⟩ := ih hcd.1 hcd.2 hδ
        rcases (Relation.ReflTransGen.cases_head_iff).mp hz with rfl | ⟨w, hw, hw'⟩
        · -- `c` itself is in the sub-interval; go to its predecessor under the return map
          have hd' : c - δ < E'.inv.total := by
            rw [h.valid'.total_inv]; have := h.total_eq; linarith
          obtain ⟨u, hu⟩ := h.valid'.inv.maps_total (x := c - δ) (by linarith) hd'
          have hu' := h.valid'.maps_inv.mp hu
          have hfr := h.fwd _ _ hu'
          rw [sub_add_cancel] at hfr
          have hud := h.valid'.maps_dom hu'
          have hfr' := hfr.flip (R' := E.inv.Maps) (fun x y hxy => h.valid.maps_inv.mpr hxy) (by linarith [hud.1])
          obtain ⟨w, hw, hw'⟩ := (Relation.TransGen.head'_iff).mp hfr'.transGen
          have : w = a := h.valid.inv.maps_unique hw (h.valid.maps_inv.mpr hac)
          subst this
          exact ⟨_, hw', by linarith [hud.1]⟩
        · have : w = a := h.valid.inv.maps_unique hw (h.valid.maps_inv.mpr hac)
          subst this
          exact ⟨z, hw', hzδ⟩
    exact key y₀ hy₀ hδ₀

theorem Fwd.of_inv {E E' : AIET P} {δ : P} (h : Fwd E.inv δ E'.inv) : Fwd E δ E' := h.inv

theorem RauzyStep.fwd {E E' : AIET P} (hE : E.Valid) (h : RauzyStep E E') : ∃ δ, 0 < δ ∧ Fwd E δ E' := by
  rcases h with h | h
  · obtain ⟨b, hb, hf⟩ := h.fwd hE
    exact ⟨_, hE.pos b hb, hf⟩
  · obtain ⟨b, hb, hf⟩ := h.fwd hE.inv
    exact ⟨_, hE.inv.pos b hb, hf.of_inv⟩

/-- Any number of elementary steps. -/
abbrev Steps : AIET P → AIET P → Prop := Relation.ReflTransGen RauzyStep

theorem Steps.fwd {E E' : AIET P} (hE : E.Valid) (h : Steps E E') : ∃ δ, Fwd E δ E' := by
  induction h with
  | refl => exact ⟨0, Fwd.refl hE⟩
  | tail _ h ih =>
    obtain ⟨δ, hδ⟩ := ih
    obtain ⟨b, _, hb⟩ := h.fwd hδ.valid'
    exact ⟨_, hδ.trans hb⟩

theorem Steps.fwd_pos {E E' : AIET P} (hE : E.Valid) (h : Relation.TransGen RauzyStep E E') : ∃ δ, 0 < δ ∧ Fwd E δ E' := by
  induction h with
  | single h => exact h.fwd hE
  | tail _ h ih =>
    obtain ⟨δ, h0, hδ⟩ := ih
    obtain ⟨b, hb0, hb⟩ := h.fwd hδ.valid'
    exact ⟨_, add_pos hb0 h0, hδ.trans hb⟩

theorem Steps.valid {E E' : AIET P} (hE : E.Valid) (h : Steps E E') : E'.Valid :=
  (h.fwd hE).choose_spec.valid'

theorem RauzyRun.steps {E E' : AIET P} (h : RauzyRun E E') : Steps E E' := by
  induction h with
  | refl => exact .refl
  | tail _ h ih => exact ih.tail (.inl h)

theorem RauzyStep.inv {E E' : AIET P} (h : RauzyStep E E') : RauzyStep E.inv E'.inv := h.symm

theorem Steps.inv {E E' : AIET P} (h : Steps E E') : Steps E.inv E'.inv := by
  induction h with
  | refl => exact .refl
  | tail _ h ih => exact ih.tail h.inv

theorem RauzyStep.saf_eq (φ ψ : P →+ ℚ) {E E' : AIET P} (hE : E.Valid) (h : RauzyStep E E') : E'.saf φ ψ = E.saf φ ψ := by
  obtain ⟨δ, _, hf⟩ := h.fwd hE
  rcases h with h | h
  · exact h.saf_eq φ ψ hE
  · have := h.saf_eq φ ψ hE.inv
    rw [saf_inv _ _ hE, saf_inv _ _ hf.valid'] at this
    linarith

theorem Steps.saf_eq (φ ψ : P →+ ℚ) {E E' : AIET P} (hE : E.Valid) (h : Steps E E') : E'.saf φ ψ = E.saf φ ψ := by
  induction h with
  | refl => rfl
  | tail hr h ih => rw [h.saf_eq φ ψ (Steps.valid hE hr), ih]

theorem RauzyTop.top_eq {E E' : AIET P} (h : RauzyTop E E') : E'.top = E.top := by cases h; rfl

theorem RauzyTop.bottom_perm {E E' : AIET P} (h : RauzyTop E E') : E'.bottom.Perm E.bottom := by
  obtain ⟨a, b, t, l₁, l₂, len, h⟩ := h
  exact List.perm_middle

theorem RauzyStep.top_perm {E E' : AIET P} (h : RauzyStep E E') : E'.top.Perm E.top := by
  rcases h with h | h
  · rw [h.top_eq]
  · exact h.bottom_perm

theorem RauzyStep.bottom_perm {E E' : AIET P} (h : RauzyStep E E') : E'.bottom.Perm E.bottom := h.inv.top_perm

theorem Steps.top_perm {E E' : AIET P} (h : Steps E E') : E'.top.Perm E.top := by
  induction h with
  | refl => exact .refl _
  | tail _ h ih => exact h.top_perm.trans ih

theorem RauzyTop.len_ne {E E' : AIET P} (h : RauzyTop E E') {x : Label} (hx : x ∉ E.top) : E'.len x = E.len x := by
  obtain ⟨a, b, t, l₁, l₂, len, h⟩ := h
  have : x ≠ a := by simp at hx; exact hx.1
  exact shorten_ne _ _ this

theorem RauzyStep.len_ne {E E' : AIET P} (hE : E.Valid) (h : RauzyStep E E') {x : Label} (hx : x ∉ E.top) : E'.len x = E.len x := by
  rcases h with h | h
  · exact h.len_ne hx
  · exact h.len_ne (fun hm => hx (hE.perm.mem_iff.mp hm))

theorem Steps.len_ne {E E' : AIET P} (hE : E.Valid) (h : Steps E E') {x : Label} (hx : x ∉ E.top) : E'.len x = E.len x := by
  induction h with
  | refl => rfl
  | tail hr h ih =>
    rw [h.len_ne (Steps.valid hE hr) (fun hm => hx ((Steps.top_perm hr).mem_iff.mp hm)), ih]

/-! ### Agreement -/

theorem AIET.Agree.refl (E : AIET P) : E.Agree E := ⟨rfl, rfl, fun _ _ => rfl⟩

theorem AIET.Agree.symm {E E' : AIET P} (h : E.Agree E') : E'.Agree E :=
  ⟨h.1.symm, h.2.1.symm, fun a ha => (h.2.2 a (h.1 ▸ ha)).symm⟩

theorem AIET.Agree.trans {E E' E'' : AIET P} (h : E.Agree E') (h' : E'.Agree E'') : E.Agree E'' :=
  ⟨h.1.trans h'.1, h.2.1.trans h'.2.1, fun a ha => (h.2.2 a ha).trans (h'.2.2 a (h.1 ▸ ha))⟩

theorem AIET.Agree.valid {E E' : AIET P} (h : E.Agree E') (hE : E.Valid) : E'.Valid := by
  obtain ⟨h1, h2, h3⟩ := h
  refine ⟨h1 ▸ hE.ne_nil, h1 ▸ hE.nodup, h1 ▸ h2 ▸ hE.perm, ?_⟩
  intro a ha
  rw [← h1] at ha
  rw [← h3 a ha]; exact hE.pos a ha

theorem AIET.Agree.inv {E E' : AIET P} (h : E.Agree E') (hE : E.Valid) : E.inv.Agree E'.inv :=
  ⟨h.2.1, h.1, fun a ha => h.2.2 a (hE.perm.mem_iff.mp ha)⟩

theorem AIET.Agree.off_top {E E' : AIET P} (h : E.Agree E') (a : Label) : off E.len E.top a = off E'.len E'.top a := by
  rw [← h.1]; exact off_congr h.2.2 _

theorem AIET.Agree.off_bottom {E E' : AIET P} (h : E.Agree E') (hE : E.Valid) (a : Label) :
    off E.len E.bottom a = off E'.len E'.bottom a := (h.inv hE).off_top a

theorem AIET.Agree.total {E E' : AIET P} (h : E.Agree E') : E.total = E'.total := by
  unfold AIET.total; rw [← h.1]; exact sumLen_congr h.2.2

theorem AIET.Agree.transl {E E' : AIET P} (h : E.Agree E') (hE : E.Valid) (a : Label) : E.transl a = E'.transl a := by
  unfold AIET.transl; rw [h.off_top, h.off_bottom hE]

theorem AIET.Agree.maps {E E' : AIET P} (h : E.Agree E') (hE : E.Valid) : E.Maps = E'.Maps := by
  funext x y
  unfold AIET.Maps
  rw [← h.1]
  apply propext
  apply exists_congr
  intro a
  apply and_congr_right
  intro ha
  rw [h.1, ← h.off_top, h.off_bottom hE, h.2.2 a ha, h.1]

theorem AIET.Agree.saf {E E' : AIET P} (h : E.Agree E') (hE : E.Valid) (φ ψ : P →+ ℚ) : E.saf φ ψ = E'.saf φ ψ := by
  rw [saf_eq_wsum, saf_eq_wsum, ← h.1]
  exact wsum_congr _ _ h.2.2 (fun a _ => h.transl hE a)

theorem RauzyTop.agree {E E' F : AIET P} (h : RauzyTop E E') (hE : E.Valid) (hF : E.Agree F) :
    ∃ F', RauzyTop F F' ∧ E'.Agree F' := by
  obtain ⟨a, b, t, l₁, l₂, len, h⟩ := h
  obtain ⟨ft, fb, flen⟩ := F
  obtain ⟨h1, h2, h3⟩ := hF
  simp only at h1 h2 h3
  subst h1 h2
  have ha := h3 a (by simp)
  have hb := h3 b (hE.perm.mem_iff.mp (by simp))
  refine ⟨_, .mk a b t l₁ l₂ flen (by rw [← ha, ← hb]; exact h), rfl, rfl, ?_⟩
  intro x hx
  simp only [shorten]
  split
  · rw [ha, hb]
  · exact h3 x hx

theorem RauzyStep.agree {E E' F : AIET P} (h : RauzyStep E E') (hE : E.Valid) (hF : E.Agree F) :
    ∃ F', RauzyStep F F' ∧ E'.Agree F' := by
  rcases h with h | h
  · obtain ⟨F', h1, h2⟩ := h.agree hE hF
    exact ⟨F', .inl h1, h2⟩
  · obtain ⟨F', h1, h2⟩ := h.agree hE.inv (hF.inv hE)
    have hv : E'.inv.Valid := by
      obtain ⟨_, _, hf⟩ := h.fwd hE.inv
      exact hf.valid'
    exact ⟨F'.inv, .inr h1, h2.inv hv⟩

theorem Steps.agree {E E' F : AIET P} (h : Steps E E') (hE : E.Valid) (hF : E.Agree F) : ∃ F', Steps F F' ∧ E'.Agree F' := by
  induction h with
  | refl => exact ⟨F, .refl, hF⟩
  | tail hr h ih =>
    obtain ⟨F1, h1, h2⟩ := ih
    obtain ⟨F2, h3, h4⟩ := h.agree (Steps.valid hE hr) h2
    exact ⟨F2, h1.tail h3, h4⟩

/-! ### Cutting and periodic points -/

theorem IsCut.periodic_iff {E l r : AIET P} {k : ℕ} (hE : E.Valid) (h : IsCut E l r k) :
    (∃ x, Periodic E.Maps x) ↔ (∃ x, Periodic l.Maps x) ∨ ∃ x, Periodic r.Maps x := by
  have hl := h.valid_left hE
  have hr := h.valid_right hE
  have ht := h.total_eq hE
  have left : ∀ x y, Relation.TransGen E.Maps x y → x < l.total → Relation.TransGen l.Maps x y ∧ y < l.total := by
    intro x y hxy hx
    induction hxy with
    | single hm => have := (h.maps_left hE hx).mp hm; exact ⟨.single this, (hl.maps_range this).2⟩
    | tail _ hm ih => have := (h.maps_left hE ih.2).mp hm; exact ⟨.tail ih.1 this, (hl.maps_range this).2⟩
  have right : ∀ x y, Relation.TransGen E.Maps x y → l.total ≤ x →
      Relation.TransGen r.Maps (x - l.total) (y - l.total) ∧ l.total ≤ y := by
    intro x y hxy hx
    have aux : ∀ u v, l.total ≤ u → E.Maps u v → r.Maps (u - l.total) (v - l.total) ∧ l.total ≤ v := by
      intro u v hu hm
      have : r.Maps (u - l.total) (v - l.total) := by
        rw [← h.maps_right hE (by linarith)]; simpa using hm
      exact ⟨this, by linarith [(hr.maps_range this).1]⟩
    induction hxy with
    | single hm => have := aux _ _ hx hm; exact ⟨.single this.1, this.2⟩
    | tail _ hm ih => have := aux _ _ ih.2 hm; exact ⟨.tail ih.1 this.1, this.2⟩
  constructor
  · rintro ⟨x, hx⟩
    by_cases hxl : x < l.total
    · exact .inl ⟨x, (left _ _ hx hxl).1⟩
    · exact .inr ⟨x - l.total, (right _ _ hx (not_lt.mp hxl)).1⟩
  · rintro (⟨x, hx⟩ | ⟨x, hx⟩)
    · refine ⟨x, ?_⟩
      have key : ∀ y, Relation.TransGen l.Maps x y → Relation.TransGen E.Maps x y := by
        intro y hy
        induction hy with
        | single hm => exact .single ((h.maps_left hE (hl.maps_dom hm).2).mpr hm)
        | tail _ hm ih => exact .tail ih ((h.maps_left hE (hl.maps_dom hm).2).mpr hm)
      exact key x hx
    · refine ⟨x + l.total, ?_⟩
      have key : ∀ y, Relation.TransGen r.Maps x y → Relation.TransGen E.Maps (x + l.total) (y + l.total) := by
        intro y hy
        induction hy with
        | single hm => exact .single ((h.maps_right hE (hr.maps_dom hm).1).mpr hm)
        | tail _ hm ih => exact .tail ih ((h.maps_right hE (hr.maps_dom hm).1).mpr hm)
      exact key x hx

end

/-! ### Changing the ring -/

section map

variable {T P : Type} [CommRing T] [LinearOrder T] [IsStrictOrderedRing T] [CommRing P] [LinearOrder P]
  [IsStrictOrderedRing P] (ι : T →+ P)

theorem sumLen_map (len : Label → T) (l : List Label) : sumLen (fun a => ι (len a)) l = ι (sumLen len l) := by
  induction l with
  | nil => simp
  | cons a l ih => simp [ih]

theorem off_map (len : Label → T) (l : List Label) (a : Label) : off (fun a => ι (len a)) l a = ι (off len l a) := by
  induction l with
  | nil => simp [off]
  | cons b l ih =>
    by_cases h : b = a
    · subst h; simp
    · rw [off_cons_ne _ h, off_cons_ne _ h, ih, map_add]

theorem AIET.map_total (E : AIET T) : (E.map ι).total = ι E.total := sumLen_map ι _ _

theorem AIET.map_transl (E : AIET T) (a : Label) : (E.map ι).transl a = ι (E.transl a) := by
  unfold AIET.transl
  rw [map_sub, ← off_map, ← off_map]; rfl

theorem AIET.map_inv (E : AIET T) : (E.map ι).inv = E.inv.map ι := rfl

theorem AIET.map_id (E : AIET T) : E.map (AddMonoidHom.id T) = E := rfl

variable {ι}

theorem AIET.Valid.map (hι : StrictMono ι) {E : AIET T} (h : E.Valid) : (E.map ι).Valid where
  ne_nil := h.ne_nil
  nodup := h.nodup
  perm := h.perm
  pos a ha := by
    have := hι (h.pos a ha)
    rwa [map_zero] at this

theorem AIET.Agree.map {E E' : AIET T} (h : E.Agree E') : (E.map ι).Agree (E'.map ι) :=
  ⟨h.1, h.2.1, fun a ha => by simp only [AIET.map]; rw [h.2.2 a ha]⟩

theorem RauzyTop.map (hι : StrictMono ι) {E E' : AIET T} (h : RauzyTop E E') : RauzyTop (E.map ι) (E'.map ι) := by
  obtain ⟨a, b, t, l₁, l₂, len, h⟩ := h
  have := RauzyTop.mk a b t l₁ l₂ (fun x => ι (len x)) (hι h)
  have hs : (fun x => ι (shorten len a (len b) x)) = shorten (fun x => ι (len x)) a (ι (len b)) := by
    funext x
    simp only [shorten]
    split <;> simp
  rw [← hs] at this
  exact this

theorem RauzyRun.map (hι : StrictMono ι) {E E' : AIET T} (h : RauzyRun E E') : RauzyRun (E.map ι) (E'.map ι) := by
  induction h with
  | refl => exact .refl
  | tail _ h ih => exact ih.tail (h.map hι)

theorem RauzyStep.map (hι : StrictMono ι) {E E' : AIET T} (h : RauzyStep E E') : RauzyStep (E.map ι) (E'.map ι) := by
  rcases h with h | h
  · exact .inl (h.map hι)
  · exact .inr (h.map hι)

theorem Steps.map (hι : StrictMono ι) {E E' : AIET T} (h : Steps E E') : Steps (E.map ι) (E'.map ι) := by
  induction h with
  | refl => exact .refl
  | tail _ h ih => exact ih.tail (h.map hι)

theorem Steps.map_pos (hι : StrictMono ι) {E E' : AIET T} (h : Relation.TransGen RauzyStep E E') :
    Relation.TransGen RauzyStep (E.map ι) (E'.map ι) := by
  induction h with
  | single h => exact .single (h.map hι)
  | tail _ h ih => exact ih.tail (h.map hι)

theorem MergeTop.map {E E' : AIET T} (h : MergeTop E E') : MergeTop (E.map ι) (E'.map ι) := by
  obtain ⟨t, b, top, l₁, l₂, len, h⟩ := h
  exact .mk t b top l₁ l₂ (fun x => ι (len x)) (by simp only [h])

theorem IsCut.map {E l r : AIET T} {k : ℕ} (h : IsCut E l r k) : IsCut (E.map ι) (l.map ι) (r.map ι) k := by
  obtain ⟨h1, h2, rfl, rfl, h3, h4⟩ := h
  exact ⟨h1, h2, rfl, rfl, h3, h4⟩

end map

end Verif
