import Verif.Spec
import Mathlib.Tactic.Linarith
import Mathlib.Tactic.Ring
import Mathlib.Data.List.Perm.Basic
import Mathlib.Data.List.Nodup

/-!
# Dynamics of abstract interval exchange transformations: helper lemmas
-/

namespace Verif

set_option linter.unusedSectionVars false

section sums

variable {P : Type} [CommRing P] [LinearOrder P] [IsStrictOrderedRing P]

@[simp] theorem sumLen_nil (len : Label → P) : sumLen len [] = 0 := rfl
@[simp] theorem sumLen_cons (len : Label → P) (a l) : sumLen len (a :: l) = len a + sumLen len l := rfl

theorem sumLen_append (len : Label → P) (l₁ l₂) :
    sumLen len (l₁ ++ l₂) = sumLen len l₁ + sumLen len l₂ := by
  induction l₁ with
  | nil => simp
  | cons a l ih => simp [ih, add_assoc]

theorem sumLen_perm (len : Label → P) {l₁ l₂ : List Label} (h : l₁.Perm l₂) :
    sumLen len l₁ = sumLen len l₂ := by
  induction h with
  | nil => rfl
  | cons a _ ih => simp [ih]
  | swap a b l => simp only [sumLen_cons]; ring
  | trans _ _ ih₁ ih₂ => rw [ih₁, ih₂]

theorem sumLen_congr {len len' : Label → P} {l : List Label} (h : ∀ a ∈ l, len a = len' a) :
    sumLen len l = sumLen len' l := by
  induction l with
  | nil => rfl
  | cons a l ih =>
    simp only [sumLen_cons]
    rw [h a (by simp), ih (fun b hb => h b (by simp [hb]))]

theorem sumLen_nonneg {len : Label → P} {l : List Label} (h : ∀ a ∈ l, 0 < len a) :
    0 ≤ sumLen len l := by
  induction l with
  | nil => simp
  | cons a l ih =>
    have := h a (by simp)
    have := ih (fun b hb => h b (by simp [hb]))
    simp only [sumLen_cons]; linarith

theorem sumLen_pos {len : Label → P} {l : List Label} (h : ∀ a ∈ l, 0 < len a) (hl : l ≠ []) :
    0 < sumLen len l := by
  cases l with
  | nil => exact absurd rfl hl
  | cons a l =>
    have := h a (by simp)
    have := sumLen_nonneg (l := l) (fun b hb => h b (by simp [hb]))
    simp only [sumLen_cons]; linarith

theorem le_sumLen {len : Label → P} {l : List Label} (h : ∀ a ∈ l, 0 < len a) {a} (ha : a ∈ l) :
    len a ≤ sumLen len l := by
  induction l with
  | nil => simp at ha
  | cons b l ih =>
    have h1 := h b (by simp)
    have h2 := sumLen_nonneg (l := l) (fun b hb => h b (by simp [hb]))
    simp only [List.mem_cons] at ha
    rcases ha with rfl | ha
    · simp only [sumLen_cons]; linarith
    · have := ih (fun b hb => h b (by simp [hb])) ha
      simp only [sumLen_cons]; linarith

@[simp] theorem off_cons_self (len : Label → P) (a l) : off len (a :: l) a = 0 := by simp [off]
theorem off_cons_ne (len : Label → P) {a b : Label} (h : b ≠ a) (l) :
    off len (b :: l) a = len b + off len l a := by simp [off, h]

theorem off_append_left (len : Label → P) {l₁ : List Label} {a} (h : a ∈ l₁) (l₂) :
    off len (l₁ ++ l₂) a = off len l₁ a := by
  induction l₁ with
  | nil => simp at h
  | cons b l ih =>
    by_cases hb : b = a
    · subst hb; simp
    · have : a ∈ l := by simpa [Ne.symm hb] using h
      simp [off_cons_ne len hb, ih this]

theorem off_append_right (len : Label → P) {l₁ : List Label} {a} (h : a ∉ l₁) (l₂) :
    off len (l₁ ++ l₂) a = sumLen len l₁ + off len l₂ a := by
  induction l₁ with
  | nil => simp
  | cons b l ih =>
    simp only [List.mem_cons, not_or] at h
    simp [off_cons_ne len (Ne.symm h.1), ih h.2, add_assoc]

theorem off_congr {len len' : Label → P} {l : List Label} (h : ∀ a ∈ l, len a = len' a) (a) :
    off len l a = off len' l a := by
  induction l with
  | nil => rfl
  | cons b l ih =>
    by_cases hb : b = a
    · subst hb; simp
    · rw [off_cons_ne len hb, off_cons_ne len' hb, h b (by simp), ih (fun b hb => h b (by simp [hb]))]

theorem off_nonneg {len : Label → P} {l : List Label} (h : ∀ a ∈ l, 0 < len a) (a) :
    0 ≤ off len l a := by
  induction l with
  | nil => simp [off]
  | cons b l ih =>
    have h1 := h b (by simp)
    have h2 := ih (fun b hb => h b (by simp [hb]))
    by_cases hb : b = a
    · subst hb; simp
    · rw [off_cons_ne len hb]; linarith

theorem off_add_le {len : Label → P} {l : List Label} (h : ∀ a ∈ l, 0 < len a) {a} (ha : a ∈ l) :
    off len l a + len a ≤ sumLen len l := by
  induction l with
  | nil => simp at ha
  | cons b l ih =>
    have h2 := sumLen_nonneg (l := l) (fun b hb => h b (by simp [hb]))
    by_cases hb : b = a
    · subst hb; simp; exact h2
    · have : a ∈ l := by simpa [Ne.symm hb] using ha
      have := ih (fun b hb => h b (by simp [hb])) this
      rw [off_cons_ne len hb, sumLen_cons]; linarith

theorem off_cover {len : Label → P} {l : List Label} (hn : l.Nodup) {x : P}
    (h0 : 0 ≤ x) (hx : x < sumLen len l) :
    ∃ a ∈ l, off len l a ≤ x ∧ x < off len l a + len a := by
  induction l generalizing x with
  | nil => simp at hx; exact absurd h0 (not_le.mpr hx)
  | cons b l ih =>
    by_cases hb : x < len b
    · exact ⟨b, by simp, by simpa using h0, by simpa using hb⟩
    · have hb := not_lt.mp hb
      simp only [sumLen_cons] at hx
      simp only [List.nodup_cons] at hn
      obtain ⟨a, ha, h1, h2⟩ := ih hn.2 (x := x - len b) (by linarith) (by linarith)
      have hne : b ≠ a := fun h => hn.1 (h ▸ ha)
      exact ⟨a, by simp [ha], by rw [off_cons_ne len hne]; linarith, by
        rw [off_cons_ne len hne]; linarith⟩

theorem off_unique {len : Label → P} {l : List Label} (hp : ∀ a ∈ l, 0 < len a)
    {x : P} {a b : Label} (ha : a ∈ l) (hb : b ∈ l)
    (ha1 : off len l a ≤ x) (ha2 : x < off len l a + len a)
    (hb1 : off len l b ≤ x) (hb2 : x < off len l b + len b) : a = b := by
  induction l generalizing x with
  | nil => simp at ha
  | cons c l ih =>
    have hp' : ∀ a ∈ l, 0 < len a := fun a h => hp a (by simp [h])
    by_cases hca : c = a
    · subst hca
      by_cases hcb : c = b
      · exact hcb
      · rw [off_cons_ne len hcb] at hb1
        have := off_nonneg hp' b
        simp at ha2
        exact absurd hb1 (not_le.mpr (by linarith))
    · by_cases hcb : c = b
      · subst hcb
        rw [off_cons_ne len hca] at ha1
        have := off_nonneg hp' a
        simp at hb2
        exact absurd ha1 (not_le.mpr (by linarith))
      · rw [off_cons_ne len hca] at ha1 ha2
        rw [off_cons_ne len hcb] at hb1 hb2
        exact ih hp' (by simpa [Ne.symm hca] using ha) (by simpa [Ne.symm hcb] using hb)
          (x := x - len c) (by linarith) (by linarith) (by linarith) (by linarith)

end sums

namespace AIET

variable {P : Type} [CommRing P] [LinearOrder P] [IsStrictOrderedRing P] {E : AIET P}

theorem Valid.pos_bottom (h : E.Valid) : ∀ a ∈ E.bottom, 0 < E.len a :=
  fun a ha => h.pos a (h.perm.mem_iff.mp ha)

theorem Valid.nodup_bottom (h : E.Valid) : E.bottom.Nodup := h.perm.nodup_iff.mpr h.nodup

theorem Valid.inv (h : E.Valid) : E.inv.Valid where
  ne_nil := by
    intro hb; apply h.ne_nil
    have : E.bottom = [] := hb
    have := h.perm; simp_all
  nodup := h.nodup_bottom
  perm := h.perm.symm
  pos := h.pos_bottom

theorem Valid.total_inv (h : E.Valid) : E.inv.total = E.total := sumLen_perm _ h.perm

theorem Valid.total_pos (h : E.Valid) : 0 < E.total := sumLen_pos h.pos h.ne_nil

theorem Valid.maps_inv (h : E.Valid) {x y : P} : E.inv.Maps y x ↔ E.Maps x y := by
  constructor
  · rintro ⟨a, ha, h1, h2, h3⟩
    simp only [AIET.inv] at ha h1 h2 h3
    exact ⟨a, h.perm.mem_iff.mp ha, by linarith, by linarith, by linarith⟩
  · rintro ⟨a, ha, h1, h2, h3⟩
    refine ⟨a, h.perm.mem_iff.mpr ha, ?_, ?_, ?_⟩ <;> simp only [AIET.inv] <;> linarith

theorem Valid.maps_dom (h : E.Valid) {x y : P} (hm : E.Maps x y) : 0 ≤ x ∧ x < E.total := by
  obtain ⟨a, ha, h1, h2, _⟩ := hm
  have := off_nonneg h.pos a
  have := off_add_le h.pos ha
  exact ⟨by linarith, by unfold AIET.total; linarith⟩

theorem Valid.maps_range (h : E.Valid) {x y : P} (hm : E.Maps x y) : 0 ≤ y ∧ y < E.total := by
  have := h.inv.maps_dom (h.maps_inv.mpr hm)
  rwa [h.total_inv] at this

theorem Valid.maps_unique (h : E.Valid) {x y z : P} (h1 : E.Maps x y) (h2 : E.Maps x z) : y = z := by
  obtain ⟨a, ha, ha1, ha2, rfl⟩ := h1
  obtain ⟨b, hb, hb1, hb2, rfl⟩ := h2
  rw [off_unique h.pos ha hb ha1 ha2 hb1 hb2]

theorem Valid.maps_fun (h : E.Valid) : ∀ x y z, E.Maps x y → E.Maps x z → y = z :=
  fun _ _ _ => h.maps_unique

theorem Valid.maps_inj (h : E.Valid) {x y z : P} (h1 : E.Maps x z) (h2 : E.Maps y z) : x = y :=
  h.inv.maps_unique (h.maps_inv.mpr h1) (h.maps_inv.mpr h2)

theorem Valid.maps_total (h : E.Valid) {x : P} (h0 : 0 ≤ x) (h1 : x < E.total) : ∃ y, E.Maps x y := by
  obtain ⟨a, ha, h1, h2⟩ := off_cover h.nodup h0 h1
  exact ⟨_, a, ha, h1, h2, rfl⟩

end AIET

/-! ### First return maps -/

section firstReturn

variable {P : Type} {R : P → P → Prop} {S S' : P → Prop}

theorem FirstReturn.mem {x y : P} (h : FirstReturn R S x y) : S y := by
  induction h with
  | now _ h => exact h
  | later _ _ _ ih => exact ih

theorem FirstReturn.transGen {x y : P} (h : FirstReturn R S x y) : Relation.TransGen R x y := by
  induction h with
  | now h _ => exact .single h
  | later h _ _ ih => exact .head h ih

theorem FirstReturn.unique (hR : ∀ x y z, R x y → R x z → y = z) {x y z : P}
    (h₁ : FirstReturn R S x y) (h₂ : FirstReturn R S x z) : y = z := by
  induction h₁ with
  | now h hs =>
    cases h₂ with
    | now h' hs' => exact hR _ _ _ h h'
    | later h' hs' _ => exact absurd (hR _ _ _ h h' ▸ hs) hs'
  | later h hs _ ih =>
    cases h₂ with
    | now h' hs' => exact absurd (hR _ _ _ h' h ▸ hs') hs
    | later h' hs' h'' => exact ih (hR _ _ _ h' h ▸ h'')

theorem FirstReturn.now' (hS : ∀ x, S' x → S x) {x y : P} (h : FirstReturn R S x y) (hy : S' y) :
    FirstReturn R S' x y := by
  induction h with
  | now h _ => exact .now h hy
  | later h hs _ ih => exact .later h (fun h => hs (hS _ h)) (ih hy)

theorem FirstReturn.later' (hS : ∀ x, S' x → S x) {x z y : P} (h : FirstReturn R S x z) (hz : ¬ S' z)
    (h' : FirstReturn R S' z y) : FirstReturn R S' x y := by
  induction h with
  | now h _ => exact .later h hz h'
  | later h hs _ ih => exact .later h (fun h => hs (hS _ h)) (ih hz h')

/-- An orbit ending in `S` decomposes into first returns. -/
theorem transGen_firstReturn {x y : P} (h : Relation.TransGen R x y) (hy : S y) :
    Relation.TransGen (FirstReturn R S) x y := by
  induction h using Relation.TransGen.head_induction_on with
  | single h => exact .single (.now h hy)
  | @head x z h _ ih =>
    by_cases hz : S z
    · exact .head (.now h hz) ih
    · obtain ⟨w, hw, hw'⟩ := (Relation.TransGen.head'_iff).mp ih
      exact Relation.TransGen.head' (.later h hz hw) hw'

end firstReturn

section returnMap

variable {P : Type} [CommRing P] [LinearOrder P] [IsStrictOrderedRing P]

/-- The forward half of `IsReturnMap`, together with: every orbit of `E` meets `[δ, total E)`. -/
structure Fwd (E : AIET P) (δ : P) (E' : AIET P) : Prop where
  valid : E.Valid
  valid' : E'.Valid
  nonneg : 0 ≤ δ
  total_eq : E'.total + δ = E.total
  fwd : ∀ x y, E'.Maps x y → FirstReturn E.Maps (fun z => δ ≤ z) (x + δ) (y + δ)
  hits : ∀ x, 0 ≤ x → x < E.total → ∃ y, Relation.ReflTransGen E.Maps x y ∧ δ ≤ y

theorem Fwd.isReturnMap {E E' : AIET P} {δ : P} (h : Fwd E δ E') : IsReturnMap E δ E' where
  nonneg := h.nonneg
  total_eq := h.total_eq
  maps_iff x y h0 h1 := by
    constructor
    · exact h.fwd x y
    · intro hf
      obtain ⟨z, hz⟩ := h.valid'.maps_total h0 h1
      have := FirstReturn.unique h.valid.maps_fun hf (h.fwd _ _ hz)
      rw [add_right_cancel this]; exact hz

theorem Fwd.refl {E : AIET P} (h : E.Valid) : Fwd E 0 E where
  valid := h
  valid' := h
  nonneg := le_refl _
  total_eq := add_zero _
  fwd x y hm := by
    rw [add_zero, add_zero]; exact .now hm (h.maps_range hm).1
  hits x h0 _ := ⟨x, .refl, h0⟩

theorem Fwd.trans {E E' E'' : AIET P} {δ δ' : P} (h : Fwd E δ E') (h' : Fwd E' δ' E'') :
    Fwd E (δ' + δ) E'' where
  valid := h.valid
  valid' := h'.valid'
  nonneg := add_nonneg h'.nonneg h.nonneg
  total_eq := by rw [← add_assoc, h'.total_eq, h.total_eq]
  fwd x y hm := by
    have key : ∀ u v, FirstReturn E'.Maps (fun z => δ' ≤ z) u v →
        FirstReturn E.Maps (fun z => δ' + δ ≤ z) (u + δ) (v + δ) := by
      intro u v huv
      have hS : ∀ x : P, δ' + δ ≤ x → δ ≤ x := fun x hx => by have := h'.nonneg; linarith
      induction huv with
      | now hm hs => exact (h.fwd _ _ hm).now' hS (by simpa using hs)
      | later hm hs _ ih => exact (h.fwd _ _ hm).later' hS (by simpa using hs) ih
    have := key _ _ (h'.fwd _ _ hm)
    rwa [add_assoc, add_assoc] at this
  hits x h0 h1 := by
    obtain ⟨y, hy, hδ⟩ := h.hits x h0 h1
    have hyr : y < E.total := by
      rcases (Relation.ReflTransGen.cases_tail_iff _ _ _).mp hy with rfl | ⟨z, _, hz⟩
      · exact h1
      · exact (h.valid.maps_range hz).2
    obtain ⟨z, hz, hδ'⟩ := h'.hits (y - δ) (by linarith) (by have := h.total_eq; linarith)
    refine ⟨z + δ, hy.trans ?_, by linarith⟩
    have key : ∀ u v, Relation.ReflTransGen E'.Maps u v →
        Relation.ReflTransGen E.Maps (u + δ) (v + δ) := by
      intro u v huv
      induction huv with
      | refl => exact .refl
      | tail _ hm ih => exact ih.trans (h.fwd _ _ hm).transGen.to_reflTransGen
    have := key _ _ hz
    rwa [sub_add_cancel] at this

theorem AIET.Valid.transGen_dom {E : AIET P} (h : E.Valid) {x y : P} (hm : Relation.TransGen E.Maps x y) :
    0 ≤ x ∧ x < E.total := by
  obtain ⟨z, hz, _⟩ := (Relation.TransGen.head'_iff).mp hm
  exact h.maps_dom hz

theorem Fwd.transGen_lift {E E' : AIET P} {δ : P} (h : Fwd E δ E') {x y : P}
    (hm : Relation.TransGen E'.Maps x y) : Relation.TransGen E.Maps (x + δ) (y + δ) := by
  induction hm with
  | single hm => exact (h.fwd _ _ hm).transGen
  | tail _ hm ih => exact ih.trans (h.fwd _ _ hm).transGen

/-- Orbits of the return map are the orbits of the map, restricted to the sub-interval. -/
theorem Fwd.transGen_iff {E E' : AIET P} {δ : P} (h : Fwd E δ E') {x y : P} (hx : 0 ≤ x)
    (hx' : x < E'.total) (hy : 0 ≤ y) :
    Relation.TransGen E'.Maps x y ↔ Relation.TransGen E.Maps (x + δ) (y + δ) := by
  constructor
  · exact h.transGen_lift
  · intro hm
    have := transGen_firstReturn (S := fun z => δ ≤ z) hm (by linarith)
    have key : ∀ u v, Relation.TransGen (FirstReturn E.Maps (fun z => δ ≤ z)) u v → δ ≤ u → u < E.total →
        Relation.TransGen E'.Maps (u - δ) (v - δ) := by
      intro u v huv hu hu'
      have ht := h.total_eq
      induction huv with
      | single hm =>
        refine .single ((h.isReturnMap.maps_iff _ _ (by linarith) (by linarith)).mpr ?_)
        rwa [sub_add_cancel, sub_add_cancel]
      | @tail b c huv hm ih =>
        refine .tail ih ?_
        have hb : δ ≤ b ∧ b < E.total := by
          obtain ⟨w, _, hw⟩ := (Relation.TransGen.tail'_iff).mp huv
          refine ⟨hw.mem, ?_⟩
          obtain ⟨w', _, hw'⟩ := (Relation.TransGen.tail'_iff).mp hw.transGen
          exact (h.valid.maps_range hw').2
        refine (h.isReturnMap.maps_iff _ _ (by linarith [hb.1]) (by linarith [hb.2])).mpr ?_
        rwa [sub_add_cancel, sub_add_cancel]
    have := key _ _ this (by linarith) (by have := h.total_eq; linarith)
    rwa [add_sub_cancel_right, add_sub_cancel_right] at this

theorem transGen_of_reflTransGen_cycle {R : P → P → Prop} (hR : ∀ x y z, R x y → R x z → y = z) {x y : P}
    (hx : Relation.TransGen R x x) (hy : Relation.ReflTransGen R x y) : Relation.TransGen R y y := by
  induction hy with
  | refl => exact hx
  | tail _ hyz ih =>
    obtain ⟨w, hw, hw'⟩ := (Relation.TransGen.head'_iff).mp ih
    rw [hR _ _ _ hyz hw]
    exact Relation.TransGen.tail' hw' (hR _ _ _ hw hyz ▸ hw)

theorem Fwd.periodic_iff {E E' : AIET P} {δ : P} (h : Fwd E δ E') :
    (∃ x, Periodic E.Maps x) ↔ ∃ x, Periodic E'.Maps x := by
  constructor
  · rintro ⟨x, hx⟩
    have hd := h.valid.transGen_dom hx
    obtain ⟨y, hy, hδ⟩ := h.hits x hd.1 hd.2
    have hyy := transGen_of_reflTransGen_cycle h.valid.maps_fun hx hy
    have hd' := h.valid.transGen_dom hyy
    refine ⟨y - δ, (h.transGen_iff (by linarith) (by have := h.total_eq; linarith) (by linarith)).mpr ?_⟩
    rwa [sub_add_cancel]
  · rintro ⟨x, hx⟩
    exact ⟨x + δ, h.transGen_lift hx⟩

end returnMap

end Verif
