import Mathlib.LinearAlgebra.Dimension.Constructions
import Mathlib.LinearAlgebra.FiniteDimensional.Lemmas
import Verif.Proofs.Genus
import Verif.SpecVertex

/-!
# Euler's formula

The kernel of the matrix of crossings consists of the lengths that come from functions on the vertices.
-/

namespace Verif

set_option linter.unusedSectionVars false

theorem chain_off {g len : Label → ℚ} : ∀ {l : List Label} {a : Label}, (∀ l₁ x y l₂, a :: l = l₁ ++ x :: y :: l₂ → g x + len x = g y) →
    (a :: l).Nodup → ∀ x ∈ a :: l, g x = g a + off len (a :: l) x := by
  intro l
  induction l with
  | nil =>
    intro a _ _ x hx
    rw [List.mem_singleton] at hx
    subst hx
    simp [off]
  | cons b l ih =>
    intro a h hn x hx
    by_cases e : a = x
    · subst e; simp [off]
    · have hx' : x ∈ b :: l := (List.mem_cons.mp hx).resolve_left (Ne.symm e)
      have h1 := ih (a := b) (fun l₁ x y l₂ e => h (a :: l₁) x y l₂ (by rw [e]; rfl)) (List.nodup_cons.mp hn).2 x hx'
      have h2 := h [] a b l rfl
      have h3 : off len (a :: b :: l) x = len a + off len (b :: l) x := by conv_lhs => rw [off, if_neg e]
      rw [h1, ← h2, h3]
      ring

theorem off_append_next {len : Label → ℚ} : ∀ {l₁ l₂ : List Label} {x y : Label}, (l₁ ++ x :: y :: l₂).Nodup →
    off len (l₁ ++ x :: y :: l₂) y = off len (l₁ ++ x :: y :: l₂) x + len x := by
  intro l₁
  induction l₁ with
  | nil =>
    intro l₂ x y hn
    have : x ≠ y := by intro e; subst e; simp at hn
    simp [off, this]
  | cons a l₁ ih =>
    intro l₂ x y hn
    rw [List.cons_append, List.nodup_cons] at hn
    have h1 : a ≠ x := by rintro rfl; exact hn.1 (by simp)
    have h2 : a ≠ y := by rintro rfl; exact hn.1 (by simp)
    simp only [List.cons_append, off, if_neg h1, if_neg h2, ih hn.2]
    ring

theorem off_last {len : Label → ℚ} : ∀ {l : List Label} {x : Label}, l.Nodup → l.getLast? = some x → off len l x + len x = (l.map len).sum := by
  intro l
  induction l with
  | nil => intro x _ h; cases h
  | cons a l ih =>
    intro x hn h
    rw [List.nodup_cons] at hn
    cases l with
    | nil =>
      simp at h
      subst h
      simp [off]
    | cons b l =>
      rw [List.getLast?_cons_cons] at h
      have hx : x ∈ b :: l := List.mem_of_getLast? h
      have hax : a ≠ x := by rintro rfl; exact hn.1 hx
      rw [off, if_neg hax, List.map_cons, List.sum_cons, ← ih hn.2 h]
      ring

theorem off_precedes {len : Label → ℚ} {l : List Label} (hn : l.Nodup) {x : Label} (hx : x ∈ l) :
    off len l x = (l.map (fun y => precedes l y x * len y)).sum := by
  induction l with
  | nil => simp at hx
  | cons b l ih =>
    rw [List.nodup_cons] at hn
    unfold off
    by_cases e : b = x
    · subst e
      rw [if_pos rfl, eq_comm]
      apply List.sum_eq_zero
      intro v hv
      obtain ⟨y, -, rfl⟩ := List.mem_map.mp hv
      simp [precedes_cons]
    · have hx' : x ∈ l := (List.mem_cons.mp hx).resolve_left (Ne.symm e)
      rw [if_neg e, ih hn.2 hx', List.map_cons, List.sum_cons]
      congr 1
      · simp [precedes_cons, Ne.symm e]
      · congr 1
        refine List.map_congr_left (fun y hy => ?_)
        have hy' : y ≠ b := by rintro rfl; exact hn.1 hy
        simp [precedes_cons, Ne.symm e, hy']

section

variable {top bottom : List Label}

/-- Extending by zero. -/
def extend (v : top.toFinset → ℚ) (a : Label) : ℚ := if h : a ∈ top.toFinset then v ⟨a, h⟩ else 0

theorem extend_coe (v : top.toFinset → ℚ) (a : top.toFinset) : extend v a = v a := by simp [extend]

theorem sum_extend (hn : top.Nodup) (v : top.toFinset → ℚ) (f : Label → ℚ) : (top.map (fun y => f y * extend v y)).sum = ∑ y : top.toFinset, f y * v y := by
  have h1 : ∑ y : top.toFinset, f y * v y = ∑ y : top.toFinset, (fun y => f y * extend v y) y.1 := by
    refine Finset.sum_congr rfl (fun y _ => ?_)
    simp [extend_coe]
  rw [h1, Finset.sum_coe_sort top.toFinset (fun y => f y * extend v y), List.sum_toFinset _ hn]

theorem mulVec_restrict (hn : top.Nodup) (hp : bottom.Perm top) (v : top.toFinset → ℚ) (x : top.toFinset) :
    (restrict (cross top bottom) top.toFinset).mulVec v x = off (extend v) bottom x - off (extend v) top x := by
  have hx : x.1 ∈ top := List.mem_toFinset.mp x.2
  rw [off_precedes hn hx, off_precedes (hp.nodup_iff.mpr hn) (hp.mem_iff.mpr hx), (hp.map _).sum_eq, sum_extend hn, sum_extend hn, ← Finset.sum_sub_distrib]
  unfold Matrix.mulVec dotProduct
  refine Finset.sum_congr rfl (fun y _ => ?_)
  simp only [restrict, Matrix.of_apply, cross]
  ring

/-- The lengths of the intervals from the positions of the vertices. -/
def differences : (Vertex top bottom → ℚ) →ₗ[ℚ] (top.toFinset → ℚ) where
  toFun f x := f (Quot.mk _ (x, true)) - f (Quot.mk _ (x, false))
  map_add' f g := by
    funext x
    show (f _ + g _) - (f _ + g _) = (f _ - f _) + (g _ - g _)
    ring
  map_smul' c f := by
    funext x
    show c * f _ - c * f _ = c * (f _ - f _)
    ring

/-- The position of an end of an interval. -/
def position (f : Vertex top bottom → ℚ) (b : Bool) (a : Label) : ℚ := if h : a ∈ top.toFinset then f (Quot.mk _ (⟨a, h⟩, b)) else 0

theorem position_coe (f : Vertex top bottom → ℚ) (b : Bool) (a : top.toFinset) : position f b a = f (Quot.mk _ (a, b)) := by simp [position]

theorem position_eq (f : Vertex top bottom → ℚ) {p q : Label × Bool} (hp : p.1 ∈ top) (hq : q.1 ∈ top) (h : Glued top bottom p q) :
    position f p.2 p.1 = position f q.2 q.1 := by
  have hp' := List.mem_toFinset.mpr hp
  have hq' := List.mem_toFinset.mpr hq
  unfold position
  rw [dif_pos hp', dif_pos hq']
  congr 1
  exact Quot.sound (r := fun p q : top.toFinset × Bool => Glued top bottom (p.1, p.2) (q.1, q.2)) h

theorem position_add (f : Vertex top bottom → ℚ) (a : Label) : position f false a + extend (differences f) a = position f true a := by
  unfold position extend
  by_cases h : a ∈ top.toFinset
  · simp only [dif_pos h, differences, LinearMap.coe_mk, AddHom.coe_mk]; ring
  · simp [h]

theorem position_off (hn : top.Nodup) (hp : bottom.Perm top) (f : Vertex top bottom → ℚ) {a b : Label} (ha : top.head? = some a) (hb : bottom.head? = some b)
    {x : Label} (hx : x ∈ top) : position f false x = position f false a + off (extend (differences f)) top x ∧
    position f false x = position f false a + off (extend (differences f)) bottom x := by
  obtain ⟨t, rfl⟩ : ∃ t, top = a :: t := by cases top with | nil => cases ha | cons a' t => exact ⟨t, by simp at ha; rw [ha]⟩
  obtain ⟨u, rfl⟩ : ∃ u, bottom = b :: u := by cases bottom with | nil => cases hb | cons b' t => exact ⟨t, by simp at hb; rw [hb]⟩
  constructor
  · refine chain_off (fun l₁ x y l₂ e => ?_) hn x hx
    rw [position_add]
    exact position_eq f (p := (x, true)) (q := (y, false)) (by rw [e]; simp) (by rw [e]; simp) (.top e)
  · have h1 : position f false a = position f false b := position_eq f (p := (a, false)) (q := (b, false)) (by simp) (hp.mem_iff.mp (by simp)) (.left ha hb)
    rw [h1]
    refine chain_off (fun l₁ x y l₂ e => ?_) (hp.nodup_iff.mpr hn) x (hp.mem_iff.mpr hx)
    rw [position_add]
    exact position_eq f (p := (x, true)) (q := (y, false)) (hp.mem_iff.mp (by rw [e]; simp)) (hp.mem_iff.mp (by rw [e]; simp)) (.bottom e)

theorem range_differences (hn : top.Nodup) (hp : bottom.Perm top) (hne : top ≠ []) :
    LinearMap.range (differences (top := top) (bottom := bottom)) = LinearMap.ker (restrict (cross top bottom) top.toFinset).mulVecLin := by
  have hne' : bottom ≠ [] := by intro e; rw [e] at hp; exact hne (List.nil_perm.mp hp)
  obtain ⟨a, ha⟩ : ∃ a, top.head? = some a := by cases top with | nil => exact absurd rfl hne | cons a t => exact ⟨a, rfl⟩
  obtain ⟨b, hb⟩ : ∃ b, bottom.head? = some b := by cases bottom with | nil => exact absurd rfl hne' | cons a t => exact ⟨a, rfl⟩
  apply le_antisymm
  · rintro _ ⟨f, rfl⟩
    rw [LinearMap.mem_ker, Matrix.mulVecLin_apply]
    funext x
    rw [mulVec_restrict hn hp]
    obtain ⟨h1, h2⟩ := position_off hn hp f ha hb (List.mem_toFinset.mp x.2)
    have := h1.symm.trans h2
    show off _ bottom x - off _ top x = 0
    linarith
  · intro v hv
    rw [LinearMap.mem_ker, Matrix.mulVecLin_apply] at hv
    have key : ∀ x ∈ top, off (extend v) bottom x = off (extend v) top x := by
      intro x hx
      have := congrFun hv ⟨x, List.mem_toFinset.mpr hx⟩
      rw [mulVec_restrict hn hp] at this
      exact sub_eq_zero.mp this
    let F : top.toFinset × Bool → ℚ := fun p => off (extend v) top p.1 + (if p.2 then extend v p.1 else 0)
    have hF : ∀ p q : top.toFinset × Bool, Glued top bottom (p.1, p.2) (q.1, q.2) → F p = F q := by
      rintro ⟨x, s⟩ ⟨y, t⟩ h
      have hx := List.mem_toFinset.mp x.2
      have hy := List.mem_toFinset.mp y.2
      simp only at h
      generalize hx' : x.1 = x' at h
      generalize hy' : y.1 = y' at h
      rw [hx'] at hx
      rw [hy'] at hy
      simp only [F, hx', hy']
      cases h with
      | top e =>
        have h := off_append_next (len := extend v) (e ▸ hn)
        rw [← e] at h
        rw [h]
        simp
      | @bottom l₁ l₂ _ _ e =>
        rw [← key _ hx, ← key _ hy]
        have h := off_append_next (len := extend v) (e ▸ hp.nodup_iff.mpr hn)
        rw [← e] at h
        rw [h]
        simp
      | left h1 h2 =>
        rw [← key _ hy]
        have e1 : ∀ (l : List Label) (z : Label), l.head? = some z → off (extend v) l z = 0 := by
          intro l z hz
          cases l with
          | nil => cases hz
          | cons c l => simp at hz; simp [off, hz]
        rw [e1 _ _ h1, e1 _ _ h2]
        simp
      | right h1 h2 =>
        rw [← key _ hy]
        simp only [if_true]
        rw [off_last hn h1, off_last (hp.nodup_iff.mpr hn) h2, (hp.map _).sum_eq]
    refine ⟨fun q => Quot.lift F hF q, ?_⟩
    funext x
    show F (x, true) - F (x, false) = v x
    simp [F, extend_coe]

theorem ker_differences (hn : top.Nodup) (hp : bottom.Perm top) (hne : top ≠ []) :
    LinearMap.ker (differences (top := top) (bottom := bottom)) = Submodule.span ℚ {fun _ => 1} := by
  have hne' : bottom ≠ [] := by intro e; rw [e] at hp; exact hne (List.nil_perm.mp hp)
  obtain ⟨a, ha⟩ : ∃ a, top.head? = some a := by cases top with | nil => exact absurd rfl hne | cons a t => exact ⟨a, rfl⟩
  obtain ⟨b, hb⟩ : ∃ b, bottom.head? = some b := by cases bottom with | nil => exact absurd rfl hne' | cons a t => exact ⟨a, rfl⟩
  apply le_antisymm
  · intro f hf
    rw [LinearMap.mem_ker] at hf
    rw [Submodule.mem_span_singleton]
    refine ⟨position f false a, ?_⟩
    have hext : ∀ x, extend (differences f) x = 0 := by intro x; rw [hf]; simp [extend]
    have hoff : ∀ (l : List Label) (x : Label), off (extend (differences f)) l x = 0 := by
      intro l x
      induction l with
      | nil => rfl
      | cons c l ih => rw [off, ih, hext]; simp
    funext q
    induction q using Quot.ind with
    | mk p =>
      obtain ⟨x, s⟩ := p
      have h1 := (position_off hn hp f ha hb (List.mem_toFinset.mp x.2)).1
      rw [hoff, add_zero] at h1
      have h2 := position_add f x.1
      rw [hext, add_zero] at h2
      show position f false a * 1 = _
      rw [mul_one, ← h1]
      cases s
      · exact position_coe f false x
      · rw [h2]; exact position_coe f true x
  · rw [Submodule.span_le]
    rintro _ rfl
    show differences _ = 0
    funext x
    simp [differences]

/-- Euler's formula: vertices, edges, and the genus. -/
theorem card_vertex (hn : top.Nodup) (hp : bottom.Perm top) (hne : top ≠ []) : Nat.card (Vertex top bottom) + crossRank top bottom = top.length + 1 := by
  classical
  have : Finite (Vertex top bottom) := by unfold Vertex; infer_instance
  have := Fintype.ofFinite (Vertex top bottom)
  have h1 := LinearMap.finrank_range_add_finrank_ker (differences (top := top) (bottom := bottom))
  have h2 := LinearMap.finrank_range_add_finrank_ker (restrict (cross top bottom) top.toFinset).mulVecLin
  rw [range_differences hn hp hne, ker_differences hn hp hne, Module.finrank_fintype_fun_eq_card, ← Nat.card_eq_fintype_card] at h1
  rw [Module.finrank_fintype_fun_eq_card, Fintype.card_coe, List.toFinset_card_of_nodup hn] at h2
  have hnz : (fun _ => 1 : Vertex top bottom → ℚ) ≠ 0 := by
    obtain ⟨x, hx⟩ := List.exists_mem_of_ne_nil _ hne
    intro e
    have := congrFun e (Quot.mk _ (⟨x, List.mem_toFinset.mpr hx⟩, true))
    exact one_ne_zero (α := ℚ) this
  rw [finrank_span_singleton hnz] at h1
  have h3 : crossRank top bottom = Module.finrank ℚ (LinearMap.range (restrict (cross top bottom) top.toFinset).mulVecLin) := rfl
  omega

end

end Verif
