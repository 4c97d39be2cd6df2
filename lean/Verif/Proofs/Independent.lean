import Verif.Proofs.Bosh
import Verif.Proofs.Induce
import Mathlib.Algebra.BigOperators.Ring.Finset
import Mathlib.Algebra.BigOperators.GroupWithZero.Action
import Mathlib.Data.Rat.Lemmas
import Mathlib.Algebra.Order.BigOperators.Group.Finset

/-!
# Lengths without a linear relation

When there is no linear relation with integer coefficients between the lengths of an irreducible IET, then there are no relations with non-negative
coefficients between its translations. This is the argument behind Keane's theorem: a relation between the translations is a relation between the lengths and
therefore it holds for all lengths, in particular for the (not positive) lengths given by the suspension data `τ = index in top - index in bottom`.
-/

namespace Verif

set_option linter.unusedSectionVars false

/-- There is no non-trivial linear relation with integer coefficients between the lengths. -/
def AIET.Independent {P : Type} [CommRing P] (A : AIET P) : Prop :=
  ∀ z : Label → ℤ, sumLen (fun a => (z a : P) * A.len a) A.top = 0 → ∀ a ∈ A.top, z a = 0

section linear

variable {P : Type} [CommRing P]

theorem sumLen_eq_sum (len : Label → P) : ∀ {l : List Label}, l.Nodup → sumLen len l = ∑ a ∈ l.toFinset, len a
  | [], _ => by simp [sumLen]
  | a :: l, h => by
    rw [List.nodup_cons] at h
    rw [List.toFinset_cons, Finset.sum_insert (by simpa using h.1), sumLen, sumLen_eq_sum len h.2]

theorem off_eq_sumLen (len : Label → P) : ∀ (l : List Label) (a : Label), off len l a = sumLen len (l.take (l.idxOf a))
  | [], a => by simp [off, sumLen]
  | b :: l, a => by
    by_cases h : b = a
    · subst h; simp [off, sumLen]
    · rw [off, if_neg h, List.idxOf_cons_ne _ h, List.take_succ_cons, sumLen, off_eq_sumLen len l a]

/-- The lengths that are one for `b` and zero otherwise. -/
def unit (b : Label) : Label → ℤ := fun a => if a = b then 1 else 0

theorem off_linear (len : Label → P) {S : Finset Label} : ∀ (l : List Label), (∀ x ∈ l, x ∈ S) → ∀ a : Label,
    off len l a = ∑ b ∈ S, ((off (unit b) l a : ℤ) : P) * len b
  | [], _, a => by simp [off]
  | x :: l, h, a => by
    by_cases e : x = a
    · simp [off, e]
    · have h1 : ∑ b ∈ S, ((off (unit b) (x :: l) a : ℤ) : P) * len b = ∑ b ∈ S, (if x = b then len b else 0) + ∑ b ∈ S, ((off (unit b) l a : ℤ) : P) * len b := by
        rw [← Finset.sum_add_distrib]
        apply Finset.sum_congr rfl
        intro b _
        rw [off, if_neg e]
        unfold unit
        split <;> push_cast <;> ring
      rw [h1, Finset.sum_ite_eq, if_pos (h x (by simp)), off, if_neg e, off_linear len l (fun y hy => h y (by simp [hy])) a]

/-- The difference of the two sides of a relation between translations. -/
def relate (top bottom : List Label) (n : Label → ℕ) (N : ℕ) (t b : Label) (len : Label → P) : P :=
  ∑ a ∈ top.toFinset, (n a : P) * (off len bottom a - off len top a) - N * (off len top t - off len bottom b)

theorem relate_linear {top bottom : List Label} (hp : bottom.Perm top) (n : Label → ℕ) (N : ℕ) (t b : Label) (len : Label → P) :
    relate top bottom n N t b len = ∑ x ∈ top.toFinset, ((relate top bottom n N t b (unit x) : ℤ) : P) * len x := by
  have ht := off_linear len (S := top.toFinset) top (by simp)
  have hb := off_linear len (S := top.toFinset) bottom (by simp [hp.mem_iff])
  unfold relate
  simp only [ht, hb]
  push_cast
  simp only [sub_mul, Finset.sum_sub_distrib, Finset.sum_mul, mul_sub, mul_assoc, Finset.mul_sum]
  congr 1
  congr 1
  · exact Finset.sum_comm
  · exact Finset.sum_comm

/-- **A relation between the translations holds for all lengths.** -/
theorem relate_all {A : AIET P} (hn : A.top.Nodup) (hp : A.bottom.Perm A.top) (h : A.Independent) {n : Label → ℕ} {N : ℕ} {t b : Label}
    (h0 : relate A.top A.bottom n N t b A.len = 0) {Q : Type} [CommRing Q] (len : Label → Q) : relate A.top A.bottom n N t b len = 0 := by
  rw [relate_linear hp] at h0
  have h1 := h (fun x => relate A.top A.bottom n N t b (unit x)) (by rw [sumLen_eq_sum _ hn]; exact h0)
  rw [relate_linear hp]
  apply Finset.sum_eq_zero
  intro x hx
  rw [h1 x (by simpa using hx)]
  simp

end linear

/-! ### Suspension data -/

/-- How many more of the prefixes of `q` than of the prefixes of `p` contain `b`, i.e., the index in `p` minus the index in `q`. -/
def susp (p q : List Label) (b : Label) : ℤ :=
  ∑ j ∈ Finset.range p.length, ((if b ∈ (q.take j).toFinset then 1 else 0) - (if b ∈ (p.take j).toFinset then 1 else 0))

theorem sum_susp (p q : List Label) (S : Finset Label) :
    ∑ b ∈ S, susp p q b = ∑ j ∈ Finset.range p.length, (((S ∩ (q.take j).toFinset).card : ℤ) - ((S ∩ (p.take j).toFinset).card : ℤ)) := by
  unfold susp
  rw [Finset.sum_comm]
  apply Finset.sum_congr rfl
  intro j _
  rw [Finset.sum_sub_distrib]
  congr 1
  · rw [← Finset.filter_mem_eq_inter, Finset.card_filter]; push_cast; rfl
  · rw [← Finset.filter_mem_eq_inter, Finset.card_filter]; push_cast; rfl

theorem card_take {l : List Label} (h : l.Nodup) (k : ℕ) : (l.take k).toFinset.card = min k l.length := by
  rw [List.toFinset_card_of_nodup (h.sublist (List.take_sublist _ _)), List.length_take]

theorem take_inter {l : List Label} (j k : ℕ) : (l.take k).toFinset ∩ (l.take j).toFinset = (l.take (min j k)).toFinset := by
  rcases le_total j k with h | h
  · rw [min_eq_left h]
    apply Finset.inter_eq_right.mpr
    intro x hx
    simp only [List.mem_toFinset] at hx ⊢
    exact (List.take_prefix_take_left h).subset hx
  · rw [min_eq_right h]
    apply Finset.inter_eq_left.mpr
    intro x hx
    simp only [List.mem_toFinset] at hx ⊢
    exact (List.take_prefix_take_left h).subset hx

/-- Prefixes of `q` have non-negative length, positive length unless they are prefixes of `p`. -/
theorem sum_susp_take {p q : List Label} (hp : p.Nodup) (hq : q.Nodup) (hl : q.length = p.length) (k : ℕ) :
    0 ≤ ∑ b ∈ (q.take k).toFinset, susp p q b ∧
      (k < p.length → ¬ (p.take k).Perm (q.take k) → 0 < ∑ b ∈ (q.take k).toFinset, susp p q b) := by
  have key : ∀ j ∈ Finset.range p.length,
      0 ≤ ((((q.take k).toFinset ∩ (q.take j).toFinset).card : ℤ) - (((q.take k).toFinset ∩ (p.take j).toFinset).card : ℤ)) := by
    intro j _
    rw [take_inter, card_take hq]
    have h1 := Finset.card_le_card (Finset.inter_subset_left (s₁ := (q.take k).toFinset) (s₂ := (p.take j).toFinset))
    have h2 := Finset.card_le_card (Finset.inter_subset_right (s₁ := (q.take k).toFinset) (s₂ := (p.take j).toFinset))
    rw [card_take hq] at h1
    rw [card_take hp] at h2
    have : ((q.take k).toFinset ∩ (p.take j).toFinset).card ≤ min (min j k) q.length := by omega
    omega
  rw [sum_susp]
  refine ⟨Finset.sum_nonneg key, fun hk hne => ?_⟩
  apply Finset.sum_pos' key
  refine ⟨k, Finset.mem_range.mpr hk, ?_⟩
  rw [take_inter, min_self]
  by_contra hle
  push Not at hle
  have hle' : (q.take k).toFinset.card ≤ ((q.take k).toFinset ∩ (p.take k).toFinset).card := by omega
  have h1 := Finset.eq_of_subset_of_card_le (Finset.inter_subset_left) hle'
  have h2 : (q.take k).toFinset ⊆ (p.take k).toFinset := Finset.inter_eq_left.mp h1
  have h3 : (q.take k).toFinset = (p.take k).toFinset := by
    apply Finset.eq_of_subset_of_card_le h2
    rw [card_take hp, card_take hq]
    omega
  exact hne (List.perm_of_nodup_nodup_toFinset_eq (hp.sublist (List.take_sublist _ _)) (hq.sublist (List.take_sublist _ _)) h3.symm)

theorem susp_neg {p q : List Label} (hl : q.length = p.length) (b : Label) : susp q p b = - susp p q b := by
  unfold susp
  rw [← Finset.sum_neg_distrib, hl]
  apply Finset.sum_congr rfl
  intro j _
  ring

section

variable {P : Type} [CommRing P] [LinearOrder P]

theorem AIET.Irreducible.inv {A : AIET P} (hl : A.bottom.length = A.top.length) (h : A.Irreducible) : A.inv.Irreducible := by
  intro k h0 hk hp
  exact h k h0 (by rw [← hl]; exact hk) hp.symm

theorem off_susp_bottom {A : AIET P} (hn : A.top.Nodup) (hp : A.bottom.Perm A.top) (hi : A.Irreducible) (a : Label) :
    0 ≤ off (susp A.top A.bottom) A.bottom a ∧
      (0 < A.bottom.idxOf a → a ∈ A.top → 0 < off (susp A.top A.bottom) A.bottom a) := by
  have hnb := hp.nodup_iff.mpr hn
  rw [off_eq_sumLen, sumLen_eq_sum _ (hnb.sublist (List.take_sublist _ _))]
  obtain ⟨h1, h2⟩ := sum_susp_take hn hnb hp.length_eq (A.bottom.idxOf a)
  refine ⟨h1, fun h0 ha => ?_⟩
  have hlt : A.bottom.idxOf a < A.top.length := by
    rw [← hp.length_eq]
    exact List.idxOf_lt_length_iff.mpr (hp.mem_iff.mpr ha)
  exact h2 hlt (hi _ h0 hlt)

theorem off_neg (len : Label → ℤ) : ∀ (l : List Label) (a : Label), off (fun x => - len x) l a = - off len l a
  | [], a => by simp [off]
  | b :: l, a => by
    rw [off, off, off_neg len l a]
    split <;> ring

theorem off_susp_top {A : AIET P} (hn : A.top.Nodup) (hp : A.bottom.Perm A.top) (hi : A.Irreducible) (a : Label) :
    off (susp A.top A.bottom) A.top a ≤ 0 ∧ (0 < A.top.idxOf a → a ∈ A.top → off (susp A.top A.bottom) A.top a < 0) := by
  obtain ⟨h1, h2⟩ := off_susp_bottom (A := A.inv) (hp.nodup_iff.mpr hn) hp.symm (hi.inv hp.length_eq) a
  have e : (susp A.inv.top A.inv.bottom) = fun b => - susp A.top A.bottom b := by
    funext b
    exact susp_neg hp.length_eq b
  rw [e, off_neg] at h1 h2
  refine ⟨?_, fun h3 h4 => ?_⟩
  · have : 0 ≤ - off (susp A.top A.bottom) A.top a := h1
    omega
  · have : 0 < - off (susp A.top A.bottom) A.top a := h2 h3 (hp.mem_iff.mpr h4)
    omega

/-- **There are no relations.** If `N` is zero then this is a relation between the translations; otherwise it is a relation coming from an orbit from the left end of
`b` in the bottom to the left end of `t` in the top. -/
theorem no_relation {A : AIET P} (hn : A.top.Nodup) (hp : A.bottom.Perm A.top) (hi : A.Irreducible) (hl : 1 < A.top.length) (h : A.Independent)
    {n : Label → ℕ} {N : ℕ} {t b : Label} (h0 : relate A.top A.bottom n N t b A.len = 0) :
    (∀ a ∈ A.top, n a = 0) ∧ (t ∈ A.top → b ∈ A.top → 0 < A.top.idxOf t → N = 0) := by
  have h1 := relate_all hn hp h h0 (susp A.top A.bottom)
  unfold relate at h1
  have hB := off_susp_bottom hn hp hi
  have hT := off_susp_top hn hp hi
  have hpos : ∀ a ∈ A.top, 0 < off (susp A.top A.bottom) A.bottom a - off (susp A.top A.bottom) A.top a := by
    intro a ha
    have b1 := hB a
    have t1 := hT a
    by_cases e1 : 0 < A.bottom.idxOf a
    · have := b1.2 e1 ha; omega
    by_cases e2 : 0 < A.top.idxOf a
    · have := t1.2 e2 ha; omega
    · exfalso
      have e1' : A.bottom.idxOf a = 0 := by omega
      have e2' : A.top.idxOf a = 0 := by omega
      refine hi 1 one_pos hl ?_
      have hh : ∀ l : List Label, a ∈ l → l.idxOf a = 0 → l.take 1 = [a] := by
        intro l hl h0
        cases l with
        | nil => simp at hl
        | cons x l =>
          by_cases e : x = a
          · simp [e]
          · rw [List.idxOf_cons_ne _ e] at h0; omega
      rw [hh _ ha e2', hh _ (hp.mem_iff.mpr ha) e1']
  have hnn : ∀ a ∈ A.top.toFinset, 0 ≤ (n a : ℤ) * (off (susp A.top A.bottom) A.bottom a - off (susp A.top A.bottom) A.top a) := by
    intro a ha
    exact mul_nonneg (by omega) (hpos a (by simpa using ha)).le
  have hsum := Finset.sum_nonneg hnn
  have hrhs : (N : ℤ) * (off (susp A.top A.bottom) A.top t - off (susp A.top A.bottom) A.bottom b) ≤ 0 := by
    apply mul_nonpos_of_nonneg_of_nonpos (by omega)
    have := (hT t).1; have := (hB b).1; omega
  constructor
  · intro a ha
    have hz : ∑ a ∈ A.top.toFinset, (n a : ℤ) * (off (susp A.top A.bottom) A.bottom a - off (susp A.top A.bottom) A.top a) = 0 := by omega
    have := (Finset.sum_eq_zero_iff_of_nonneg hnn).mp hz a (by simpa using ha)
    rcases mul_eq_zero.mp this with h' | h'
    · exact_mod_cast h'
    · exact absurd h' (hpos a ha).ne'
  · intro ht hb h0'
    by_contra hN
    have h3 := (hT t).2 h0' ht
    have h4 := (hB b).1
    have : (N : ℤ) * (off (susp A.top A.bottom) A.top t - off (susp A.top A.bottom) A.bottom b) < 0 :=
      mul_neg_of_pos_of_neg (by omega) (by omega)
    omega

end

/-! ### Rational relations -/

theorem clear_denominators : ∀ {top : List Label} {x : List ℚ}, top.Nodup → x.length = top.length → (∀ v ∈ x, 0 ≤ v) →
    ∃ (N : ℕ) (n : Label → ℕ), 0 < N ∧ (∀ f : Label → ℚ, N * dot (top.map f) x = ∑ a ∈ top.toFinset, (n a : ℚ) * f a) ∧
      ((∃ v ∈ x, v ≠ 0) → ∃ a ∈ top, n a ≠ 0)
  | [], [], _, _, _ => ⟨1, fun _ => 0, one_pos, by simp, by simp⟩
  | [], v :: x, _, h, _ => by simp at h
  | a :: l, [], _, h, _ => by simp at h
  | a :: l, v :: x, hn, hl, h0 => by
    rw [List.nodup_cons] at hn
    obtain ⟨N, n, h1, h2, h3⟩ := clear_denominators hn.2 (by simpa using hl) (fun v hv => h0 v (by simp [hv]))
    have hv : 0 ≤ v := h0 v (by simp)
    have hnum : ((v.num.toNat : ℕ) : ℚ) = v.num := by
      have := Int.toNat_of_nonneg (Rat.num_nonneg.mpr hv)
      exact_mod_cast this
    have hden : (v.den : ℚ) * v = v.num := by rw [mul_comm]; exact Rat.mul_den_eq_num v
    refine ⟨N * v.den, fun b => if b = a then N * v.num.toNat else n b * v.den, Nat.mul_pos h1 v.den_pos, ?_, ?_⟩
    · intro f
      rw [List.map_cons, dot_cons, List.toFinset_cons, Finset.sum_insert (by simpa using hn.1)]
      have h4 : ∑ b ∈ l.toFinset, ((if b = a then N * v.num.toNat else n b * v.den : ℕ) : ℚ) * f b = v.den * ∑ b ∈ l.toFinset, (n b : ℚ) * f b := by
        rw [Finset.mul_sum]
        apply Finset.sum_congr rfl
        intro b hb
        have : b ≠ a := by rintro rfl; exact hn.1 (by simpa using hb)
        rw [if_neg this]
        push_cast
        ring
      rw [h4, ← h2 f]
      beta_reduce
      rw [if_pos rfl]
      push_cast
      rw [hnum, ← hden]
      ring
    · rintro ⟨u, hu, hu0⟩
      rcases List.mem_cons.mp hu with rfl | hu
      · refine ⟨a, by simp, ?_⟩
        beta_reduce
        rw [if_pos rfl]
        have : 0 < u := lt_of_le_of_ne hv (Ne.symm hu0)
        have := Rat.num_pos.mpr this
        exact Nat.mul_ne_zero h1.ne' (by omega)
      · obtain ⟨b, hb, hb0⟩ := h3 ⟨u, hu, hu0⟩
        refine ⟨b, by simp [hb], ?_⟩
        have : b ≠ a := by rintro rfl; exact hn.1 hb
        beta_reduce
        rw [if_neg this]
        exact Nat.mul_ne_zero hb0 v.den_ne_zero

section

variable {T : Type} [CommRing T] [LinearOrder T] [IsStrictOrderedRing T] {d : ℕ} {c : T →+ (Fin d → ℚ)}

/-- A rational relation that holds for all the coordinates is a relation between lengths. -/
theorem relate_of_coords (hc : ∀ x, c x = 0 → x = 0) {A : AIET T} (hn : A.top.Nodup) {x : List ℚ} (hl : x.length = A.top.length) (h0 : ∀ v ∈ x, 0 ≤ v)
    (k : ℕ) (t b : Label)
    (h : ∀ i < d, dot (A.top.map (fun a => coefAt c i (A.transl a))) x = k * coefAt c i (off A.len A.top t - off A.len A.bottom b)) :
    ∃ (N : ℕ) (n : Label → ℕ), 0 < N ∧ relate A.top A.bottom n (N * k) t b A.len = 0 ∧ ((∃ v ∈ x, v ≠ 0) → ∃ a ∈ A.top, n a ≠ 0) := by
  obtain ⟨N, n, h1, h2, h3⟩ := clear_denominators hn hl h0
  refine ⟨N, n, h1, ?_, h3⟩
  apply hc
  funext i
  have h4 := h2 (fun a => coefAt c i (A.transl a))
  rw [h i i.2] at h4
  have h5 : c (relate A.top A.bottom n (N * k) t b A.len) i = coefAt c i (relate A.top A.bottom n (N * k) t b A.len) := by simp [coefAt]
  have hmul : ∀ (m : ℕ) (x : T), coefAt c i ((m : T) * x) = m * coefAt c i x := by
    intro m x; rw [← nsmul_eq_mul, map_nsmul, nsmul_eq_mul]
  rw [h5]
  unfold relate
  rw [map_sub, map_sum, hmul]
  simp only [hmul]
  have h6 : ∑ a ∈ A.top.toFinset, (n a : ℚ) * coefAt c i (off A.len A.bottom a - off A.len A.top a) =
    ∑ a ∈ A.top.toFinset, (n a : ℚ) * coefAt c i (A.transl a) := rfl
  rw [h6, ← h4]
  push_cast
  rw [Pi.zero_apply]
  ring

theorem AIET.Independent.not_posRelation (hc : ∀ x, c x = 0 → x = 0) {A : AIET T} (hA : A.Valid) (hi : A.Irreducible) (hl : 1 < A.top.length)
    (h : A.Independent) : ¬ PosRelation c A := by
  rintro ⟨x, x1, x2, x3, x4⟩
  obtain ⟨N, n, -, h2, h3⟩ := relate_of_coords hc hA.nodup x1 x2 0 0 0 (by simpa using x4)
  obtain ⟨a, ha, h4⟩ := h3 x3
  exact h4 ((no_relation hA.nodup hA.perm hi hl h h2).1 a ha)

/-- No orbit from the left end of `b` in the bottom to the left end of `t` in the top, not even the orbit of length zero. -/
theorem AIET.Independent.not_connected (hc : ∀ x, c x = 0 → x = 0) {A : AIET T} (hA : A.Valid) (hi : A.Irreducible) (hl : 1 < A.top.length)
    (h : A.Independent) {t b : Label} (ht : t ∈ A.top) (hb : b ∈ A.top) (h0 : 0 < A.top.idxOf t) :
    off A.len A.top t - off A.len A.bottom b ≠ 0 ∧ ¬ ∃ x : List ℚ, x.length = A.top.length ∧ (∀ v ∈ x, 0 ≤ v) ∧
      ∀ i < d, dot (A.top.map (fun a => coefAt c i (A.transl a))) x = coefAt c i (off A.len A.top t - off A.len A.bottom b) := by
  constructor
  · intro e
    have : relate A.top A.bottom (fun _ => 0) 1 t b A.len = 0 := by simp [relate, e]
    exact absurd ((no_relation hA.nodup hA.perm hi hl h this).2 ht hb h0) one_ne_zero
  · rintro ⟨x, x1, x2, x3⟩
    obtain ⟨N, n, h1, h2, -⟩ := relate_of_coords hc hA.nodup x1 x2 1 t b (by simpa using x3)
    have := (no_relation hA.nodup hA.perm hi hl h h2).2 ht hb h0
    omega

end

/-! ### Induction -/

section

variable {P : Type} [CommRing P] [LinearOrder P] [IsStrictOrderedRing P]

theorem AIET.Independent.inv {A : AIET P} (hp : A.bottom.Perm A.top) (h : A.Independent) : A.inv.Independent := by
  intro z hz a ha
  refine h z ?_ a (hp.mem_iff.mp ha)
  rw [← hz]
  exact (sumLen_perm _ hp).symm

theorem RauzyTop.independent {A B : AIET P} (hA : A.Valid) (h : RauzyTop A B) (hi : A.Independent) : B.Independent := by
  cases h with
  | mk a b t l₁ l₂ len hlt =>
    have hn : (a :: t).Nodup := hA.nodup
    have hab : a ≠ b := by rintro rfl; exact lt_irrefl _ hlt
    have hb : b ∈ t := by
      have : b ∈ a :: t := hA.perm.mem_iff.mp (by simp)
      exact (List.mem_cons.mp this).resolve_left (Ne.symm hab)
    rw [List.nodup_cons] at hn
    intro z hz
    have hz' : sumLen (fun x => (z x : P) * shorten len a (len b) x) (a :: t) = 0 := hz
    have key := hi (fun x => if x = b then z b - z a else z x) (by
      show sumLen (fun x => (((if x = b then z b - z a else z x : ℤ)) : P) * len x) (a :: t) = 0
      rw [← hz', sumLen_cons, sumLen_cons, sumLen_eq_sum _ hn.2, sumLen_eq_sum _ hn.2, ← Finset.add_sum_erase _ _ (List.mem_toFinset.mpr hb),
        ← Finset.add_sum_erase (a := b) (f := fun x => (z x : P) * shorten len a (len b) x) _ (List.mem_toFinset.mpr hb)]
      have e : ∑ x ∈ t.toFinset.erase b, (((if x = b then z b - z a else z x : ℤ)) : P) * len x =
          ∑ x ∈ t.toFinset.erase b, (z x : P) * shorten len a (len b) x := by
        apply Finset.sum_congr rfl
        intro x hx
        rw [Finset.mem_erase, List.mem_toFinset] at hx
        have : x ≠ a := by rintro rfl; exact hn.1 hx.2
        rw [if_neg hx.1, shorten, if_neg this]
      rw [e]
      simp only [if_true, if_neg hab, shorten, if_neg (Ne.symm hab)]
      push_cast
      ring)
    have ha0 : z a = 0 := by simpa [hab] using key a (by simp)
    have hb0 : z b = 0 := by simpa [ha0] using key b (by simp [hb])
    intro x hx
    by_cases e : x = b
    · rw [e, hb0]
    · simpa [e] using key x hx

theorem RauzyTop.irreducible {A B : AIET P} (hA : A.Valid) (h : RauzyTop A B) (hi : A.Irreducible) : B.Irreducible := by
  cases h with
  | mk a b t l₁ l₂ len hlt =>
    intro k h0 hk hp
    refine hi k h0 hk (hp.trans ?_)
    have hnb : (b :: (l₁ ++ a :: l₂)).Nodup := hA.perm.nodup_iff.mpr hA.nodup
    have hal : a ∉ l₁ := by
      intro h
      rw [List.nodup_cons, List.nodup_append] at hnb
      exact hnb.2.2.2 a h a (by simp) rfl
    have hab : a ≠ b := by rintro rfl; exact lt_irrefl _ hlt
    have hmem : a ∈ (l₁ ++ b :: a :: l₂).take k := by
      refine hp.mem_iff.mp ?_
      obtain ⟨k, rfl⟩ : ∃ j, k = j + 1 := ⟨k - 1, by omega⟩
      simp
    have hlen : l₁.length + 2 ≤ k := by
      by_contra hlt'
      have hsub : a ∈ l₁ ++ [b] := by
        have e : l₁ ++ b :: a :: l₂ = (l₁ ++ [b]) ++ a :: l₂ := by simp
        rw [e, List.take_append_of_le_length (by simp; omega)] at hmem
        exact List.mem_of_mem_take hmem
      simp [hal, hab] at hsub
    obtain ⟨j, rfl⟩ := Nat.exists_eq_add_of_le hlen
    have e1 : (l₁ ++ b :: a :: l₂).take (l₁.length + 2 + j) = l₁ ++ b :: a :: l₂.take j := by
      rw [show l₁.length + 2 + j = l₁.length + (j + 2) by omega, List.take_length_add_append]
      simp
    have e2 : (b :: (l₁ ++ a :: l₂)).take (l₁.length + 2 + j) = b :: (l₁ ++ a :: l₂.take j) := by
      rw [show l₁.length + 2 + j = (l₁.length + (j + 1)) + 1 by omega, List.take_succ_cons, List.take_length_add_append]
      simp
    show ((l₁ ++ b :: a :: l₂).take (l₁.length + 2 + j)).Perm ((b :: (l₁ ++ a :: l₂)).take (l₁.length + 2 + j))
    rw [e1, e2]
    exact List.perm_middle

theorem RauzyStep.independent {A B : AIET P} (hA : A.Valid) (h : RauzyStep A B) (hi : A.Independent) : B.Independent := by
  have hB := Steps.valid hA (.single h)
  rcases h with h | h
  · exact h.independent hA hi
  · exact (h.independent hA.inv (hi.inv hA.perm)).inv hB.inv.perm

theorem RauzyStep.irreducible {A B : AIET P} (hA : A.Valid) (h : RauzyStep A B) (hi : A.Irreducible) : B.Irreducible := by
  have hB := Steps.valid hA (.single h)
  rcases h with h | h
  · exact h.irreducible hA hi
  · exact (h.irreducible hA.inv (hi.inv hA.perm.length_eq)).inv hB.inv.perm.length_eq

/-- Without relations, the first intervals have different lengths. -/
theorem AIET.Independent.not_headsEq {A : AIET P} (hA : A.Valid) (hl : 1 < A.top.length) (hi : A.Irreducible) (h : A.Independent) : ¬ HeadsEq A := by
  intro he
  obtain ⟨a, b, ha, hb⟩ := hA.heads
  have e := he a b ha hb
  have hma : a ∈ A.top := List.mem_of_mem_head? ha
  have hmb : b ∈ A.top := hA.perm.mem_iff.mp (List.mem_of_mem_head? hb)
  have hab : a ≠ b := by
    rintro rfl
    refine hi 1 one_pos hl ?_
    have hh : ∀ l : List Label, l.head? = some a → l.take 1 = [a] := by
      intro l hl
      cases l with
      | nil => simp at hl
      | cons x l => simp at hl; simp [hl]
    rw [hh _ ha, hh _ hb]
  have key := h (fun x => unit a x - unit b x) (by
    rw [sumLen_eq_sum _ hA.nodup]
    have e1 : ∀ y ∈ A.top, ∑ x ∈ A.top.toFinset, ((unit y x : ℤ) : P) * A.len x = A.len y := by
      intro y hy
      unfold unit
      simp only [Int.cast_ite, Int.cast_one, Int.cast_zero, ite_mul, one_mul, zero_mul]
      rw [Finset.sum_ite_eq' A.top.toFinset y, if_pos (List.mem_toFinset.mpr hy)]
    simp only [Int.cast_sub, sub_mul, Finset.sum_sub_distrib, e1 a hma, e1 b hmb, e, sub_self]) a hma
  simp [unit, hab] at key

theorem Steps.independent {A B : AIET P} (hA : A.Valid) (h : Steps A B) (hi : A.Independent) : B.Independent := by
  induction h with
  | refl => exact hi
  | tail h1 h2 ih => exact h2.independent (Steps.valid hA h1) ih

theorem Steps.irreducible {A B : AIET P} (hA : A.Valid) (h : Steps A B) (hi : A.Irreducible) : B.Irreducible := by
  induction h with
  | refl => exact hi
  | tail h1 h2 ih => exact h2.irreducible (Steps.valid hA h1) ih

end

end Verif
