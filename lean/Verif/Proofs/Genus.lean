import Mathlib.LinearAlgebra.Matrix.Rank
import Mathlib.LinearAlgebra.Matrix.NonsingularInverse
import Mathlib.LinearAlgebra.Prod
import Mathlib.Data.Matrix.Block
import Verif.Proofs.Confluence

/-!
# The genus

The translations of the intervals depend on the lengths through a matrix that only depends on the two orders of the labels.  We show how this matrix
changes when an elementary step is performed, when a connection is removed, and when an interval exchange transformation is split.
-/

namespace Verif

set_option linter.unusedSectionVars false

/-! ## Ranks -/

section Rank

open Matrix

/-- The matrix with entries `f x y` for all labels in `S`. -/
def restrict (f : Label → Label → ℚ) (S : Finset Label) : Matrix S S ℚ := Matrix.of (fun x y => f x y)

/-- Adding a multiple of a row to another one, doing the same to the columns and removing some rows and columns does not increase the rank. -/
theorem rank_le {f g : Label → Label → ℚ} {S S' : Finset Label} {a b : Label} {k : ℚ} (ha : a ∈ S) (hS : S' ⊆ S) (hf : f a a = 0)
    (h : ∀ x ∈ S', ∀ y ∈ S', g x y = f x y + (if x = b then k * f a y else 0) + (if y = b then k * f x a else 0)) :
    (restrict g S').rank ≤ (restrict f S).rank := by
  classical
  let P : Matrix S' S ℚ := Matrix.of (fun x u => (if u = (⟨x, hS x.2⟩ : S) then 1 else 0) + (if u = ⟨a, ha⟩ then (if x.1 = b then k else 0) else 0))
  have e : restrict g S' = P * restrict f S * Pᵀ := by
    ext x y
    have e1 : ∀ v : S, (P * restrict f S) x v = f x v + (if x.1 = b then k * f a v else 0) := by
      intro v
      rw [Matrix.mul_apply]
      simp only [P, Matrix.of_apply, restrict, add_mul, ite_mul, one_mul, zero_mul]
      rw [Finset.sum_add_distrib, Finset.sum_ite_eq', Finset.sum_ite_eq']
      simp
    rw [Matrix.mul_apply]
    simp only [e1, Matrix.transpose_apply]
    simp only [P, Matrix.of_apply, mul_add, mul_ite, mul_one, mul_zero]
    rw [Finset.sum_add_distrib, Finset.sum_ite_eq', Finset.sum_ite_eq']
    simp only [Finset.mem_univ, if_true, restrict, Matrix.of_apply]
    rw [h x x.2 y y.2]
    by_cases h1 : x.1 = b <;> by_cases h2 : y.1 = b <;> simp [h1, h2, hf] <;> ring
  rw [e]
  exact (Matrix.rank_mul_le_left _ _).trans (Matrix.rank_mul_le_right _ _)

/-- Adding multiples of two rows to the rows and doing the same to the columns does not increase the rank. -/
theorem rank_le_two {f g : Label → Label → ℚ} {S : Finset Label} {a b : Label} (α β : Label → ℚ) (ha : a ∈ S) (hb : b ∈ S)
    (h : ∀ x ∈ S, ∀ y ∈ S, g x y = f x y + α x * f a y + β x * f b y + α y * (f x a + α x * f a a + β x * f b a) +
      β y * (f x b + α x * f a b + β x * f b b)) :
    (restrict g S).rank ≤ (restrict f S).rank := by
  classical
  let P : Matrix S S ℚ := Matrix.of (fun x u => (if u = x then 1 else 0) + (if u = ⟨a, ha⟩ then α x else 0) + (if u = ⟨b, hb⟩ then β x else 0))
  have e : restrict g S = P * restrict f S * Pᵀ := by
    ext x y
    have e1 : ∀ v : S, (P * restrict f S) x v = f x v + α x * f a v + β x * f b v := by
      intro v
      rw [Matrix.mul_apply]
      simp only [P, Matrix.of_apply, restrict, add_mul, ite_mul, one_mul, zero_mul]
      rw [Finset.sum_add_distrib, Finset.sum_add_distrib, Finset.sum_ite_eq', Finset.sum_ite_eq', Finset.sum_ite_eq']
      simp
    rw [Matrix.mul_apply]
    simp only [e1, Matrix.transpose_apply]
    simp only [P, Matrix.of_apply, mul_add, mul_ite, mul_one, mul_zero]
    rw [Finset.sum_add_distrib, Finset.sum_add_distrib, Finset.sum_ite_eq', Finset.sum_ite_eq', Finset.sum_ite_eq']
    simp only [Finset.mem_univ, if_true, restrict, Matrix.of_apply]
    rw [h x x.2 y y.2]
    ring
  rw [e]
  exact (Matrix.rank_mul_le_left _ _).trans (Matrix.rank_mul_le_right _ _)

theorem rank_blocks {m n : Type} [Fintype m] [Fintype n] [DecidableEq m] [DecidableEq n] (A : Matrix m m ℚ) (B : Matrix n n ℚ) :
    (Matrix.fromBlocks A 0 0 B).rank = A.rank + B.rank := by
  have e : (Matrix.fromBlocks A 0 0 B).mulVecLin =
      ((LinearEquiv.sumArrowLequivProdArrow m n ℚ ℚ).symm.toLinearMap ∘ₗ (A.mulVecLin.prodMap B.mulVecLin)) ∘ₗ
        (LinearEquiv.sumArrowLequivProdArrow m n ℚ ℚ).toLinearMap := by
    refine LinearMap.ext (fun v => ?_)
    simp only [Matrix.mulVecLin_apply, LinearMap.comp_apply, LinearEquiv.coe_coe]
    rw [Matrix.fromBlocks_mulVec]
    funext i
    cases i <;> simp [LinearEquiv.sumArrowLequivProdArrow, Function.comp_def] <;> rfl
  rw [Matrix.rank, e, LinearMap.range_comp, LinearEquiv.range, Submodule.map_top, LinearMap.range_comp, LinearEquiv.finrank_map_eq,
    LinearMap.range_prodMap]
  rw [Matrix.rank, Matrix.rank]
  rw [← Module.finrank_prod]
  exact LinearEquiv.finrank_eq {
    toFun := fun v => (⟨v.1.1, v.2.1⟩, ⟨v.1.2, v.2.2⟩)
    invFun := fun v => ⟨(v.1.1, v.2.1), v.1.2, v.2.2⟩
    map_add' := fun _ _ => rfl
    map_smul' := fun _ _ => rfl
    left_inv := fun _ => rfl
    right_inv := fun _ => rfl }

theorem rank_union {f : Label → Label → ℚ} {S S' : Finset Label} (h : Disjoint S S') (h1 : ∀ x ∈ S, ∀ y ∈ S', f x y = 0)
    (h2 : ∀ x ∈ S', ∀ y ∈ S, f x y = 0) : (restrict f (S ∪ S')).rank = (restrict f S).rank + (restrict f S').rank := by
  rw [← rank_blocks, ← Matrix.rank_submatrix _ (Equiv.Finset.union S S' h) (Equiv.Finset.union S S' h)]
  congr 1
  ext i j
  rcases i with i | i <;> rcases j with j | j <;> simp [restrict]
  · exact h1 _ i.2 _ j.2
  · exact h2 _ i.2 _ j.2

theorem two_le_rank {f : Label → Label → ℚ} {S : Finset Label} {a b : Label} (ha : a ∈ S) (hb : b ∈ S) (h1 : f a a = 0) (h2 : f a b ≠ 0)
    (h3 : f b a ≠ 0) : 2 ≤ (restrict f S).rank := by
  have := Matrix.rank_submatrix_le (restrict f S) ![⟨a, ha⟩, ⟨b, hb⟩] ![⟨a, ha⟩, ⟨b, hb⟩]
  refine le_trans ?_ this
  rw [Matrix.rank_of_isUnit]
  · simp
  · rw [Matrix.isUnit_iff_isUnit_det, Matrix.det_fin_two]
    simp [restrict, h1, h2, h3]

theorem rank_add_le' {n : Type} [Fintype n] (A B : Matrix n n ℚ) : (A + B).rank ≤ A.rank + B.rank := by
  classical
  unfold Matrix.rank
  rw [Matrix.mulVecLin_add]
  refine le_trans (Submodule.finrank_mono ?_) (Submodule.finrank_add_le_finrank_add_finrank _ _)
  rintro _ ⟨v, rfl⟩
  exact Submodule.add_mem_sup ⟨v, rfl⟩ ⟨v, rfl⟩

/-- Removing a row and a column reduces the rank by at most two. -/
theorem rank_erase (f : Label → Label → ℚ) {S : Finset Label} {a : Label} (ha : a ∈ S) : (restrict f S).rank ≤ (restrict f (S.erase a)).rank + 2 := by
  classical
  let Q : Matrix S (S.erase a : Finset Label) ℚ := Matrix.of (fun x u => if x.1 = u.1 then 1 else 0)
  let A : Matrix S S ℚ := Q * restrict f (S.erase a) * Qᵀ
  let B : Matrix S S ℚ := Matrix.vecMulVec (fun x => if x.1 = a then 1 else 0) (fun y => f a y)
  let C : Matrix S S ℚ := Matrix.vecMulVec (fun x => if x.1 = a then 0 else f x a) (fun y => if y.1 = a then 1 else 0)
  have hA : ∀ x y : S, A x y = if x.1 = a ∨ y.1 = a then 0 else f x y := by
    intro x y
    have e1 : ∀ v : (S.erase a : Finset Label), (Q * restrict f (S.erase a)) x v = if x.1 = a then 0 else f x v := by
      intro v
      rw [Matrix.mul_apply]
      simp only [Q, Matrix.of_apply, restrict, ite_mul, one_mul, zero_mul]
      by_cases hx : x.1 = a
      · rw [if_pos hx]
        refine Finset.sum_eq_zero (fun u _ => if_neg ?_)
        intro e
        exact (Finset.mem_erase.mp u.2).1 (e ▸ hx)
      · rw [if_neg hx, Finset.sum_eq_single ⟨x.1, Finset.mem_erase.mpr ⟨hx, x.2⟩⟩]
        · simp
        · intro u _ hu
          exact if_neg (fun e => hu (Subtype.ext e.symm))
        · intro h; exact absurd (Finset.mem_univ _) h
    show (Q * restrict f (S.erase a) * Qᵀ) x y = _
    rw [Matrix.mul_apply]
    simp only [e1, Matrix.transpose_apply]
    simp only [Q, Matrix.of_apply, mul_ite, mul_one, mul_zero]
    by_cases hy : y.1 = a
    · rw [if_pos (.inr hy)]
      refine Finset.sum_eq_zero (fun u _ => if_neg ?_)
      intro e
      exact (Finset.mem_erase.mp u.2).1 (e ▸ hy)
    · rw [Finset.sum_eq_single ⟨y.1, Finset.mem_erase.mpr ⟨hy, y.2⟩⟩]
      · simp [hy]
      · intro u _ hu
        exact if_neg (fun e => hu (Subtype.ext e.symm))
      · intro h; exact absurd (Finset.mem_univ _) h
  have e : restrict f S = A + B + C := by
    ext x y
    rw [Matrix.add_apply, Matrix.add_apply, hA]
    simp only [B, C, Matrix.vecMulVec_apply, restrict, Matrix.of_apply]
    by_cases h1 : x.1 = a <;> by_cases h2 : y.1 = a <;> simp [h1, h2]
  have r1 : A.rank ≤ (restrict f (S.erase a)).rank := (Matrix.rank_mul_le_left _ _).trans (Matrix.rank_mul_le_right _ _)
  have r2 : B.rank ≤ 1 := Matrix.rank_vecMulVec_le _ _
  have r3 : C.rank ≤ 1 := Matrix.rank_vecMulVec_le _ _
  rw [e]
  have s1 := rank_add_le' (A + B) C
  have s2 := rank_add_le' A B
  omega

theorem restrict_congr {f g : Label → Label → ℚ} {S : Finset Label} (h : ∀ x ∈ S, ∀ y ∈ S, f x y = g x y) : restrict f S = restrict g S := by
  ext x y
  exact h x x.2 y y.2

/-- The rank of an alternating matrix is even. -/
theorem even_rank {f : Label → Label → ℚ} {S : Finset Label} (h1 : ∀ x ∈ S, f x x = 0) (h2 : ∀ x ∈ S, ∀ y ∈ S, f y x = - f x y) :
    Even (restrict f S).rank := by
  classical
  induction hn : S.card using Nat.strong_induction_on generalizing S f with
  | _ n ih =>
    by_cases h0 : ∀ x ∈ S, ∀ y ∈ S, f x y = 0
    · have : restrict f S = 0 := by ext x y; exact h0 x x.2 y y.2
      rw [this, Matrix.rank_zero]
      exact Even.zero
    · push Not at h0
      obtain ⟨a, ha, b, hb, hc⟩ := h0
      have hab : a ≠ b := by rintro rfl; exact hc (h1 a ha)
      have hba := h2 a ha b hb
      have haa := h1 a ha
      have hbb := h1 b hb
      let α : Label → ℚ := fun x => if x = a ∨ x = b then 0 else - f x b / f a b
      let β : Label → ℚ := fun x => if x = a ∨ x = b then 0 else f x a / f a b
      let g : Label → Label → ℚ := fun x y => f x y + α x * f a y + β x * f b y + α y * (f x a + α x * f a a + β x * f b a) +
        β y * (f x b + α x * f a b + β x * f b b)
      have αa : α a = 0 := by simp [α]
      have αb : α b = 0 := by simp [α]
      have βa : β a = 0 := by simp [β]
      have βb : β b = 0 := by simp [β]
      have e : (restrict f S).rank = (restrict g S).rank := by
        apply le_antisymm
        · refine rank_le_two (fun x => - α x) (fun x => - β x) ha hb (fun x hx y hy => ?_)
          simp only [g, αa, αb, βa, βb]
          ring
        · exact rank_le_two α β ha hb (fun x hx y hy => rfl)
      have g1 : ∀ x ∈ S, g x x = 0 := by
        intro x hx
        simp only [g]
        rw [h1 x hx, haa, hbb, hba, h2 x hx a ha, h2 x hx b hb]
        ring
      have g2 : ∀ x ∈ S, ∀ y ∈ S, g y x = - g x y := by
        intro x hx y hy
        simp only [g]
        rw [h2 x hx y hy, haa, hbb, hba, h2 x hx a ha, h2 x hx b hb, h2 y hy a ha, h2 y hy b hb]
        ring
      have g3 : ∀ x ∈ S, x ≠ a → x ≠ b → g x a = 0 ∧ g x b = 0 := by
        intro x hx hxa hxb
        simp only [g, αa, αb, βa, βb]
        have e1 : α x = - f x b / f a b := by simp [α, hxa, hxb]
        have e2 : β x = f x a / f a b := by simp [β, hxa, hxb]
        rw [e1, e2, haa, hbb, hba]
        constructor <;> field_simp <;> ring
      have gab : g a b = f a b := by
        simp only [g, αa, αb, βa, βb]
        ring
      let S' := (S.erase a).erase b
      have hS : S = ({a, b} : Finset Label) ∪ S' := by
        ext x
        simp only [S', Finset.mem_union, Finset.mem_insert, Finset.mem_singleton, Finset.mem_erase]
        constructor
        · intro hx; tauto
        · rintro ((rfl | rfl) | ⟨-, -, hx⟩) <;> assumption
      have hS' : ∀ x ∈ S', x ∈ S ∧ x ≠ a ∧ x ≠ b := by
        intro x hx
        simp only [S', Finset.mem_erase] at hx
        tauto
      have e' : (restrict g S).rank = (restrict g {a, b}).rank + (restrict g S').rank := by
        conv_lhs => rw [hS]
        refine rank_union ?_ ?_ ?_
        · rw [Finset.disjoint_left]
          intro x hx hx'
          have := hS' x hx'
          simp only [Finset.mem_insert, Finset.mem_singleton] at hx
          tauto
        · intro x hx y hy
          obtain ⟨hy', hya, hyb⟩ := hS' y hy
          have := g3 y hy' hya hyb
          simp only [Finset.mem_insert, Finset.mem_singleton] at hx
          rcases hx with rfl | rfl
          · rw [g2 y hy' x ha, this.1, neg_zero]
          · rw [g2 y hy' x hb, this.2, neg_zero]
        · intro x hx y hy
          obtain ⟨hx, hxa, hxb⟩ := hS' x hx
          have := g3 x hx hxa hxb
          simp only [Finset.mem_insert, Finset.mem_singleton] at hy
          rcases hy with rfl | rfl
          · exact this.1
          · exact this.2
      have e2 : (restrict g {a, b}).rank = 2 := by
        apply le_antisymm
        · refine (Matrix.rank_le_card_width _).trans ?_
          rw [Fintype.card_coe]
          exact Finset.card_le_two
        · refine two_le_rank (a := a) (b := b) (by simp) (by simp) (g1 a ha) (by rw [gab]; exact hc) ?_
          rw [g2 a ha b hb, gab]
          exact neg_ne_zero.mpr hc
      rw [e, e', e2]
      refine Even.add even_two (ih S'.card ?_ (fun x hx => g1 x (hS' x hx).1) (fun x hx y hy => g2 x (hS' x hx).1 y (hS' y hy).1) rfl)
      rw [← hn]
      refine Finset.card_lt_card ⟨fun x hx => (hS' x hx).1, fun h => ?_⟩
      exact (hS' a (h ha)).2.1 rfl

end Rank

/-! ## The matrix of crossings -/

/-- Whether a label comes before another one, as a number. -/
def precedes (l : List Label) (y x : Label) : ℚ := if l.idxOf y < l.idxOf x then 1 else 0

theorem precedes_cons (c : Label) (l : List Label) (y x : Label) : precedes (c :: l) y x = if x = c then 0 else if y = c then 1 else precedes l y x := by
  unfold precedes
  rw [List.idxOf_cons, List.idxOf_cons]
  by_cases h1 : x = c
  · subst h1; simp
  · by_cases h2 : y = c
    · subst h2; simp [h1, beq_eq_false_iff_ne.mpr (Ne.symm h1)]
    · simp [h1, h2, beq_eq_false_iff_ne.mpr (Ne.symm h1), beq_eq_false_iff_ne.mpr (Ne.symm h2)]

theorem precedes_append (l m : List Label) (y x : Label) :
    precedes (l ++ m) y x = if x ∈ l then precedes l y x else if y ∈ l then 1 else precedes m y x := by
  induction l with
  | nil => simp
  | cons c l ih =>
    rw [List.cons_append, precedes_cons, ih, precedes_cons]
    simp only [List.mem_cons]
    by_cases h1 : x = c <;> by_cases h2 : y = c <;> simp [h1, h2]

theorem precedes_self (l : List Label) (x : Label) : precedes l x x = 0 := by simp [precedes]

theorem precedes_not_mem {l : List Label} {y x : Label} (hy : y ∉ l) : precedes l y x = 0 := by
  unfold precedes
  rw [if_neg]
  rw [List.idxOf_eq_length hy]
  exact not_lt.mpr List.idxOf_le_length

theorem precedes_swap {l : List Label} {y x : Label} (hx : x ∈ l) (h : x ≠ y) : precedes l x y = 1 - precedes l y x := by
  induction l with
  | nil => simp at hx
  | cons c l ih =>
    rw [precedes_cons, precedes_cons]
    by_cases h1 : x = c
    · subst h1; simp [h.symm]
    · by_cases h2 : y = c
      · subst h2; simp [h1]
      · simp only [h1, h2, if_false]
        exact ih (by simpa [h1] using hx)

/-- How the translation of `x` depends on the length of `y`. -/
def cross (top bottom : List Label) (x y : Label) : ℚ := precedes bottom y x - precedes top y x

theorem cross_self (top bottom : List Label) (x : Label) : cross top bottom x x = 0 := by simp [cross, precedes_self]

theorem cross_inv (top bottom : List Label) (x y : Label) : cross bottom top x y = - cross top bottom x y := by simp [cross]

theorem cross_swap {top bottom : List Label} (h : ∀ x, x ∈ bottom ↔ x ∈ top) {x y : Label} (hx : x ∈ top) : cross top bottom y x = - cross top bottom x y := by
  by_cases e : x = y
  · subst e; simp [cross_self]
  · unfold cross
    rw [precedes_swap hx e, precedes_swap ((h x).mpr hx) e]
    ring

variable {σ T ε : Type} [CommRing T] [LinearOrder T] [IsStrictOrderedRing T] {O : LengthsOps σ T} {d : ℕ} {c : T →+ (Fin d → ℚ)}

/-- The rank of the matrix of crossings. -/
noncomputable def crossRank (top bottom : List Label) : ℕ := (restrict (cross top bottom) top.toFinset).rank

/-- The rank of the matrix of crossings. -/
noncomputable def AIET.rank {P : Type} (A : AIET P) : ℕ := crossRank A.top A.bottom

theorem AIET.rank_norm (A : AIET T) : A.norm.rank = A.rank := rfl

theorem AIET.rank_inv {A : AIET T} (hA : A.Valid) : A.inv.rank = A.rank := by
  unfold AIET.rank crossRank AIET.inv
  have e : A.bottom.toFinset = A.top.toFinset := List.toFinset_eq_of_perm _ _ hA.perm
  show (restrict (cross A.bottom A.top) A.bottom.toFinset).rank = _
  rw [e]
  have : restrict (cross A.bottom A.top) A.top.toFinset = (-1 : ℚ) • restrict (cross A.top A.bottom) A.top.toFinset := by
    ext x y
    simp [restrict, cross_inv A.top A.bottom]
  rw [this]
  exact Matrix.rank_smul_of_mem_nonZeroDivisors _ (by simp)

theorem cross_rauzy {a b : Label} {t l₁ l₂ : List Label} {len : Label → T} (hA : (⟨a :: t, b :: (l₁ ++ a :: l₂), len⟩ : AIET T).Valid) :
    ∀ x ∈ a :: t, ∀ y ∈ a :: t, cross (a :: t) (l₁ ++ b :: a :: l₂) x y = cross (a :: t) (b :: (l₁ ++ a :: l₂)) x y +
      (if x = b then cross (a :: t) (b :: (l₁ ++ a :: l₂)) a y else 0) + (if y = b then cross (a :: t) (b :: (l₁ ++ a :: l₂)) x a else 0) := by
  have hs := hA.split
  intro x hx y hy
  have m1 : ∀ z, z ∈ a :: t → z = a ∨ z = b ∨ z ∈ l₁ ∨ z ∈ l₂ := by
    intro z hz
    have : z ∈ b :: (l₁ ++ a :: l₂) := hA.perm.mem_iff.mpr hz
    simp only [List.mem_cons, List.mem_append] at this
    tauto
  obtain ⟨h1, h2, h3, h4, h5, h6, h7, h8, h9, h10, h11, h12⟩ := hs
  have n1 : ∀ z ∈ l₁, z ≠ a := fun z hz e => h7 (e ▸ hz)
  have n2 : ∀ z ∈ l₁, z ≠ b := fun z hz e => h5 (e ▸ hz)
  have n3 : ∀ z ∈ l₂, z ≠ a := fun z hz e => h8 (e ▸ hz)
  have n4 : ∀ z ∈ l₂, z ≠ b := fun z hz e => h6 (e ▸ hz)
  have n5 : ∀ z ∈ l₂, z ∉ l₁ := fun z hz e => h11 z e hz
  have n6 : a ≠ b := h3.symm
  unfold cross
  simp only [precedes_cons, precedes_append]
  rcases m1 x hx with rfl | rfl | hx' | hx' <;> rcases m1 y hy with rfl | rfl | hy' | hy' <;>
    simp_all [precedes_not_mem] <;> ring

theorem RauzyTop.rank {A B : AIET T} (hA : A.Valid) (h : RauzyTop A B) : B.rank = A.rank := by
  obtain ⟨a, b, t, l₁, l₂, len, hlt⟩ := h
  have hs := hA.split
  have key := cross_rauzy hA
  show (restrict _ _).rank = (restrict _ _).rank
  apply le_antisymm
  · refine rank_le (a := a) (b := b) (k := 1) (by simp) (Finset.Subset.refl _) (cross_self _ _ _) (fun x hx y hy => ?_)
    rw [key x (List.mem_toFinset.mp hx) y (List.mem_toFinset.mp hy), one_mul, one_mul]
  · refine rank_le (a := a) (b := b) (k := -1) (by simp) (Finset.Subset.refl _) (cross_self _ _ _) (fun x hx y hy => ?_)
    have ha : a ∈ a :: t := by simp
    have hba : a ≠ b := hs.b_a.symm
    rw [key x (List.mem_toFinset.mp hx) y (List.mem_toFinset.mp hy), key a ha y (List.mem_toFinset.mp hy), key x (List.mem_toFinset.mp hx) a ha]
    by_cases h1 : x = b <;> by_cases h2 : y = b <;> simp [h1, h2, hba, cross_self] <;> ring

theorem RauzyStep.rank {A B : AIET T} (hA : A.Valid) (h : RauzyStep A B) : B.rank = A.rank := by
  rcases h with h' | h'
  · exact h'.rank hA
  · have hB : B.Valid := Steps.valid hA (.single (.inr h'))
    rw [← AIET.rank_inv hA, ← AIET.rank_inv hB]
    exact h'.rank hA.inv

theorem Steps.rank {A B : AIET T} (hA : A.Valid) (h : Steps A B) : B.rank = A.rank := by
  induction h with
  | refl => rfl
  | tail h1 h2 ih => rw [h2.rank (Steps.valid hA h1), ih]

theorem cross_merge {a b : Label} {t l₁ l₂ : List Label} {len : Label → T} (hA : (⟨a :: t, b :: (l₁ ++ a :: l₂), len⟩ : AIET T).Valid) :
    ∀ x ∈ t, ∀ y ∈ t, cross t (l₁ ++ b :: l₂) x y = cross (a :: t) (b :: (l₁ ++ a :: l₂)) x y +
      (if x = b then cross (a :: t) (b :: (l₁ ++ a :: l₂)) a y else 0) + (if y = b then cross (a :: t) (b :: (l₁ ++ a :: l₂)) x a else 0) := by
    have hs := hA.split
    intro x hx y hy
    have m1 : ∀ z, z ∈ t → z = b ∨ z ∈ l₁ ∨ z ∈ l₂ := by
      intro z hz
      have : z ∈ b :: (l₁ ++ l₂) := hs.perm.mem_iff.mpr hz
      simp only [List.mem_cons, List.mem_append] at this
      tauto
    have hxa : x ≠ a := fun e => hs.a_t (e ▸ hx)
    have hya : y ≠ a := fun e => hs.a_t (e ▸ hy)
    obtain ⟨h1, h2, h3, h4, h5, h6, h7, h8, h9, h10, h11, h12⟩ := hs
    have n1 : ∀ z ∈ l₁, z ≠ a := fun z hz e => h7 (e ▸ hz)
    have n2 : ∀ z ∈ l₁, z ≠ b := fun z hz e => h5 (e ▸ hz)
    have n3 : ∀ z ∈ l₂, z ≠ a := fun z hz e => h8 (e ▸ hz)
    have n4 : ∀ z ∈ l₂, z ≠ b := fun z hz e => h6 (e ▸ hz)
    have n5 : ∀ z ∈ l₂, z ∉ l₁ := fun z hz e => h11 z e hz
    have n6 : a ≠ b := h3.symm
    unfold cross
    simp only [precedes_cons, precedes_append]
    rcases m1 x hx with rfl | hx' | hx' <;> rcases m1 y hy with rfl | hy' | hy' <;>
      simp_all [precedes_not_mem, precedes_self] <;> ring

theorem MergeTop.rank {A B : AIET T} (hA : A.Valid) (h : MergeTop A B) : B.rank ≤ A.rank := by
  obtain ⟨a, b, t, l₁, l₂, len, hlen⟩ := h
  show (restrict _ _).rank ≤ (restrict _ _).rank
  refine rank_le (a := a) (b := b) (k := 1) (by simp) (fun x hx => ?_) (cross_self _ _ _) (fun x hx y hy => ?_)
  · rw [List.mem_toFinset] at hx ⊢
    exact List.mem_cons_of_mem _ hx
  · rw [cross_merge hA x (List.mem_toFinset.mp hx) y (List.mem_toFinset.mp hy), one_mul, one_mul]

theorem MergeTop.le_rank {A B : AIET T} (hA : A.Valid) (h : MergeTop A B) : A.rank ≤ B.rank + 2 := by
  obtain ⟨a, b, t, l₁, l₂, len, hlen⟩ := h
  have hs := hA.split
  let f := cross (a :: t) (b :: (l₁ ++ a :: l₂))
  let g : Label → Label → ℚ := fun x y => f x y + (if x = b then f a y else 0) + (if y = b then f x a else 0)
  have hab : a ≠ b := hs.b_a.symm
  have e1 : (restrict f (a :: t).toFinset).rank ≤ (restrict g (a :: t).toFinset).rank := by
    refine rank_le (a := a) (b := b) (k := -1) (by simp) (Finset.Subset.refl _) (by simp [g, f, hab, cross_self]) (fun x _ y _ => ?_)
    simp only [g]
    have : f a a = 0 := cross_self _ _ _
    by_cases h1 : x = b <;> by_cases h2 : y = b <;> simp [h1, h2, hab, this] <;> ring
  refine e1.trans ((rank_erase g (a := a) (by simp)).trans ?_)
  have e2 : (a :: t).toFinset.erase a = t.toFinset := by
    ext x
    simp only [List.toFinset_cons, Finset.mem_erase, Finset.mem_insert, List.mem_toFinset]
    constructor
    · rintro ⟨h1, h2⟩; exact h2.resolve_left h1
    · intro h; exact ⟨fun e => hs.a_t (e ▸ h), .inr h⟩
  rw [e2]
  refine Nat.add_le_add_right (le_of_eq ?_) 2
  show _ = (restrict _ _).rank
  congr 1
  refine restrict_congr (fun x hx y hy => ?_)
  exact (cross_merge hA x (List.mem_toFinset.mp hx) y (List.mem_toFinset.mp hy)).symm

theorem cross_append_left {t t' b b' : List Label} (hb : ∀ x, x ∈ b ↔ x ∈ t) {x y : Label} (hx : x ∈ t) :
    cross (t ++ t') (b ++ b') x y = cross t b x y := by
  unfold cross
  rw [precedes_append, precedes_append, if_pos hx, if_pos ((hb x).mpr hx)]

theorem cross_append_right {t t' b b' : List Label} (hb : ∀ x, x ∈ b ↔ x ∈ t) {x y : Label} (hx : x ∉ t) :
    cross (t ++ t') (b ++ b') x y = if y ∈ t then 0 else cross t' b' x y := by
  unfold cross
  rw [precedes_append, precedes_append, if_neg hx, if_neg (fun h => hx ((hb x).mp h))]
  by_cases hy : y ∈ t
  · simp [hy, (hb y).mpr hy]
  · simp [hy, show y ∉ b from fun h => hy ((hb y).mp h)]

theorem IsCut.rank {A l r : AIET T} {k : ℕ} (hA : A.Valid) (h : IsCut A l r k) : l.rank + r.rank = A.rank := by
  obtain ⟨h1, h2, -, -, h5, h6, h7⟩ := h.facts hA
  unfold AIET.rank crossRank
  rw [h1, h2, List.toFinset_append]
  have hb : ∀ x, x ∈ l.bottom ↔ x ∈ l.top := fun x => h6.mem_iff
  rw [rank_union]
  · congr 2
    · ext x y
      exact (cross_append_left hb (List.mem_toFinset.mp x.2)).symm
    · ext x y
      show cross _ _ _ _ = cross _ _ _ _
      have hx : x.1 ∉ l.top := fun hx => h5 _ hx (List.mem_toFinset.mp x.2)
      have hy : y.1 ∉ l.top := fun hy => h5 _ hy (List.mem_toFinset.mp y.2)
      rw [cross_append_right hb hx, if_neg hy]
  · rw [Finset.disjoint_left]
    intro x hx hx'
    exact h5 x (List.mem_toFinset.mp hx) (List.mem_toFinset.mp hx')
  · intro x hx y hy
    have hx := List.mem_toFinset.mp hx
    have hy := List.mem_toFinset.mp hy
    rw [cross_append_left hb hx]
    have hy' : y ∉ l.top := fun hy' => h5 _ hy' hy
    unfold cross
    rw [precedes_not_mem hy', precedes_not_mem (fun h => hy' ((hb y).mp h)), sub_zero]
  · intro x hx y hy
    have hx := List.mem_toFinset.mp hx
    have hy := List.mem_toFinset.mp hy
    rw [cross_append_right hb (fun hx' => h5 _ hx' hx), if_pos hy]

theorem AIET.rank_even {A : AIET T} (hA : A.Valid) : Even A.rank :=
  even_rank (fun x _ => cross_self _ _ x) (fun _ hx _ _ => cross_swap (fun _ => hA.perm.mem_iff) (List.mem_toFinset.mp hx))

/-- When the orders start with different labels, the rank is not zero. -/
theorem AIET.two_le_rank {A : AIET T} (hA : A.Valid) (h : A.top.head? ≠ A.bottom.head?) : 2 ≤ A.rank := by
  obtain ⟨t, b, len⟩ := A
  have hp : b.Perm t := hA.perm
  cases t with
  | nil => rw [List.perm_nil.mp hp] at h; simp at h
  | cons x t =>
    cases b with
    | nil => exact absurd hp (by simp)
    | cons y b =>
      have hne : x ≠ y := by simpa using h
      have hy : y ∈ x :: t := hp.mem_iff.mp (by simp)
      have e : cross (x :: t) (y :: b) x y = 1 := by simp [cross, precedes_cons, hne]
      refine Verif.two_le_rank (a := x) (b := y) (by simp) (by simpa using hy) (cross_self _ _ _) ?_ ?_
      · rw [e]; exact one_ne_zero
      · rw [cross_swap (fun z => hp.mem_iff) (by simp), e]; norm_num

theorem AIET.rank_le_length (A : AIET T) : A.rank ≤ A.top.length := by
  unfold AIET.rank crossRank
  refine (Matrix.rank_le_card_width _).trans ?_
  rw [Fintype.card_coe]
  exact List.toFinset_card_le _

/-- The sum of the ranks of several transformations. -/
noncomputable def ranks (M : Multiset (AIET T)) : ℕ := (M.map AIET.rank).sum

theorem ranks_cons (A : AIET T) (M : Multiset (AIET T)) : ranks (A ::ₘ M) = A.rank + ranks M := by simp [ranks]

theorem ranks_add (M N : Multiset (AIET T)) : ranks (M + N) = ranks M + ranks N := by simp [ranks]

theorem ranks_singleton (A : AIET T) : ranks {A} = A.rank := by simp [ranks]

/-- How many intervals there are in several transformations. -/
def sizes (M : Multiset (AIET T)) : ℕ := (M.map (fun A => A.top.length)).sum

theorem sizes_cons (A : AIET T) (M : Multiset (AIET T)) : sizes (A ::ₘ M) = A.top.length + sizes M := by simp [sizes]

theorem sizes_add (M N : Multiset (AIET T)) : sizes (M + N) = sizes M + sizes N := by simp [sizes]

theorem sizes_singleton (A : AIET T) : sizes {A} = A.top.length := by simp [sizes]

theorem Steps.length {A B : AIET T} (hA : A.Valid) (h : Steps A B) : B.top.length = A.top.length := by
  induction h with
  | refl => rfl
  | @tail B C h1 h2 ih =>
    rw [← ih]
    have hB := Steps.valid hA h1
    have hC := Steps.valid hA (h1.tail h2)
    rcases h2 with h2 | h2
    · cases h2; rfl
    · have : C.bottom.length = B.bottom.length := by
        generalize hX : B.inv = X at h2
        generalize hY : C.inv = Y at h2
        cases h2
        have e1 := congrArg (fun z => z.top.length) hX
        have e2 := congrArg (fun z => z.top.length) hY
        exact e2.trans e1.symm
      rw [← hC.perm.length_eq, ← hB.perm.length_eq, this]

theorem MergeTop.length {A B : AIET T} (h : MergeTop A B) : A.top.length = B.top.length + 1 := by
  cases h; rfl

theorem IsCut.length {A l r : AIET T} {k : ℕ} (hA : A.Valid) (h : IsCut A l r k) : l.top.length + r.top.length = A.top.length := by
  rw [(h.facts hA).1, List.length_append]

theorem Ev.ranks {A : AIET T} {l : Multiset (AIET T)} (hA : A.Valid) (h : Ev A l) :
    ranks l ≤ A.rank ∧ A.rank + 2 * sizes l ≤ ranks l + 2 * A.top.length := by
  cases h with
  | @rauzy B h =>
    rw [ranks_singleton, AIET.rank_norm, h.rank hA, sizes_singleton]
    have h1 : B.top.length = A.top.length := Steps.length hA (.single h)
    have : B.norm.top.length = A.top.length := h1
    omega
  | @split l r k h =>
    rw [Multiset.insert_eq_cons, ranks_cons, ranks_singleton, AIET.rank_norm, AIET.rank_norm, h.rank hA, sizes_cons, sizes_singleton]
    have h1 := h.length hA
    have : l.norm.top.length + r.norm.top.length = A.top.length := h1
    omega
  | @merge C _ h =>
    rw [ranks_singleton, AIET.rank_norm, sizes_singleton]
    have h1 := h.rank hA
    have h2 := h.le_rank hA
    have : A.top.length = C.norm.top.length + 1 := h.length
    omega

theorem Rws.ranks {M M' : Multiset (AIET T)} (h : Rws M M') : ranks M' ≤ ranks M ∧ ranks M + 2 * sizes M' ≤ ranks M' + 2 * sizes M := by
  induction h with
  | refl => exact ⟨le_rfl, le_rfl⟩
  | tail _ h ih =>
    obtain ⟨A, N, l, rfl, h1, h2, rfl⟩ := h
    have := h2.ranks h1
    rw [ranks_cons, sizes_cons] at ih
    rw [ranks_add, sizes_add]
    omega

theorem Effect.ranks {b : Bool} {A B : AIET T} {new : List (AIET T)} (hA : A.Valid) (h : Effect b A new B) :
    B.rank + Verif.ranks (new : Multiset (AIET T)) ≤ A.rank ∧
    A.rank + 2 * (B.top.length + sizes (new : Multiset (AIET T))) ≤ B.rank + Verif.ranks (new : Multiset (AIET T)) + 2 * A.top.length := by
  cases h with
  | steps h =>
    rw [h.rank hA, h.length hA]
    simp [Verif.ranks, sizes]
  | swap =>
    rw [AIET.rank_inv hA]
    have : A.inv.top.length = A.top.length := hA.perm.length_eq
    simp [Verif.ranks, sizes, this]
  | @cut _ B l r k h h' =>
    have hB := Steps.valid hA h
    have h1 := h'.rank hB
    have h2 := h'.length hB
    rw [← h.rank hA, ← h.length hA]
    simp [Verif.ranks, sizes]
    omega
  | merge h h' =>
    have hB := Steps.valid hA h
    have h1 := h'.rank hB
    have h2 := h'.le_rank hB
    have h3 := h'.length
    rw [← h.rank hA, ← h.length hA]
    simp [Verif.ranks, sizes]
    omega

end Verif
