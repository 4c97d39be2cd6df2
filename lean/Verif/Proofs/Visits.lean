import Verif.SpecVisits
import Verif.Proofs.Code
import Verif.Proofs.Genus
import Mathlib.LinearAlgebra.Matrix.Transvection

/-!
# Visit matrices
-/

namespace Verif

set_option linter.unusedSectionVars false

variable {P : Type} [CommRing P] [LinearOrder P] [IsStrictOrderedRing P]

theorem AIET.crossing_cast (E : AIET P) (x y : Label) : (E.crossing x y : ℚ) = cross E.top E.bottom x y := by
  unfold AIET.crossing cross precedes
  push_cast
  rfl

theorem sum_count (S : Finset Label) (f : Label → ℤ) : ∀ (u : List Label), (∀ a ∈ u, a ∈ S) → ∑ z : S, f z * ((u.count z.1 : ℕ) : ℤ) = (u.map f).sum
  | [], _ => by simp
  | b :: u, h => by
    have hb := h b (by simp)
    rw [List.map_cons, List.sum_cons, ← sum_count S f u (fun a ha => h a (List.mem_cons_of_mem _ ha))]
    have e : ∀ z : S, f z * (((b :: u).count z.1 : ℕ) : ℤ) = (if z = ⟨b, hb⟩ then f b else 0) + f z * ((u.count z.1 : ℕ) : ℤ) := by
      intro z
      rw [List.count_cons]
      by_cases h : z = ⟨b, hb⟩
      · subst h; simp; ring
      · have : ¬ b = z.1 := fun e => h (Subtype.ext e.symm)
        simp [h, this]
    simp only [e, Finset.sum_add_distrib, Finset.sum_ite_eq', Finset.mem_univ, if_true]

theorem visits_flatMap (S : Finset Label) {w u v : Label → List Label} (hu : ∀ y ∈ S, ∀ a ∈ u y, a ∈ S) (hv : ∀ y ∈ S, v y = (u y).flatMap w) :
    visits S v = visits S w * visits S u := by
  ext x y
  rw [Matrix.mul_apply]
  simp only [visits, Matrix.of_apply]
  rw [hv y y.2, sum_count S (fun z => (((w z).count x.1 : ℕ) : ℤ)) (u y) (hu y y.2)]
  exact count_flatMap_cast w x (u y)

theorem visits_id (S : Finset Label) : visits S (fun a => [a]) = 1 := by
  ext x y
  simp only [visits, Matrix.of_apply, List.count_singleton, Matrix.one_apply]
  by_cases h : x = y
  · subst h; simp
  · have : ¬ y.1 = x.1 := fun e => h (Subtype.ext e.symm)
    simp [h, this]

theorem visits_rauzy {S : Finset Label} {a b : Label} (ha : a ∈ S) (hb : b ∈ S) (hab : b ≠ a) :
    visits S (fun c => if c = b then [b, a] else [c]) = Matrix.transvection (⟨a, ha⟩ : S) ⟨b, hb⟩ 1 := by
  ext x y
  have e1 : ∀ z : S, (z.1 = b ↔ z = ⟨b, hb⟩) := fun z => ⟨fun e => Subtype.ext e, fun e => by rw [e]⟩
  have e2 : ∀ z : S, (a = z.1 ↔ z = ⟨a, ha⟩) := fun z => ⟨fun e => Subtype.ext e.symm, fun e => by rw [e]⟩
  simp only [visits, Matrix.of_apply, Matrix.transvection, Matrix.add_apply, Matrix.one_apply, Matrix.single_apply]
  by_cases h : y.1 = b
  · have hy : y = ⟨b, hb⟩ := Subtype.ext h
    subst hy
    simp only [if_true, List.count_cons, List.count_nil, beq_iff_eq, and_true, zero_add]
    by_cases h1 : x.1 = b
    · have hx : x = ⟨b, hb⟩ := Subtype.ext h1
      subst hx
      simp [hab.symm]
    · have hx : ¬ x = ⟨b, hb⟩ := fun e => h1 (by rw [e])
      by_cases h2 : x.1 = a
      · have hx : x = ⟨a, ha⟩ := Subtype.ext h2
        subst hx
        simp [hab, hab.symm]
      · have h2' : ¬ (⟨a, ha⟩ : S) = x := fun e => h2 (by rw [← e])
        simp [hx, h2', Ne.symm h1, Ne.symm h2]
  · have hy : ¬ (⟨b, hb⟩ : S) = y := fun e => h (by rw [← e])
    simp only [h, if_false, List.count_singleton, beq_iff_eq, hy, and_false, add_zero]
    by_cases h1 : x = y
    · subst h1; simp
    · have : ¬ y.1 = x.1 := fun e => h1 (Subtype.ext e.symm)
      simp [h1, this]

theorem visits_reverse (S : Finset Label) (w : Label → List Label) : visits S (fun a => (w a).reverse) = visits S w := by
  ext x y
  simp [visits]

theorem AIET.form_inv (E : AIET P) (S : Finset Label) : E.inv.form S = - E.form S := by
  ext x y
  simp only [AIET.form, AIET.crossing, AIET.inv, Matrix.of_apply, Matrix.neg_apply]
  exact (neg_sub _ _).symm

theorem Unwinds.refl {A : AIET P} (hA : A.Valid) : Unwinds A 0 A (fun a => [a]) where
  labels := .refl _
  range := ⟨le_refl _, by ring⟩
  towers := .init A hA
  det := by rw [visits_id, Matrix.det_one]
  form := by rw [visits_id, Matrix.transpose_one, one_mul, mul_one]

theorem Unwinds.trans {A B C : AIET P} {δ δ' : P} {w u : Label → List Label} (hB : B.Valid) (hC : C.Valid) (h : Unwinds A δ B w)
    (h' : Unwinds B δ' C u) : Unwinds A (δ + δ') C (fun a => if a ∈ B.top then (u a).flatMap w else w a) := by
  have e : B.top.toFinset = A.top.toFinset := List.toFinset_eq_of_perm _ _ h.labels
  have h1 : Towers A [(δ + δ', C)] (fun a => if a ∈ B.top then (u a).flatMap w else w a) :=
    h.towers.replace hB h'.towers (by simpa using hC) (by simpa using ⟨h'.range.1, h'.range.2.le⟩) (by simpa using fun a ha => h'.labels.mem_iff.mp ha) (by simp)
  have e2 : visits A.top.toFinset (fun a => if a ∈ B.top then (u a).flatMap w else w a) = visits A.top.toFinset w * visits A.top.toFinset u := by
    refine visits_flatMap _ (fun y hy a ha => ?_) (fun y hy => ?_)
    · have hy' : y ∈ C.top := h'.labels.mem_iff.mpr (h.labels.mem_iff.mpr (List.mem_toFinset.mp hy))
      obtain ⟨x, z, hxz⟩ := hC.exists_mapsBy hy'
      have := (h'.towers.excursion (δ', C) (by simp) y hy' x z hxz).path.mem a ha
      exact List.mem_toFinset.mpr (h.labels.mem_iff.mp this)
    · rw [if_pos (h.labels.mem_iff.mpr (List.mem_toFinset.mp hy))]
  have h2 := h'.det
  have h3 := h'.form
  rw [e] at h2 h3
  refine ⟨h'.labels.trans h.labels, ⟨add_nonneg h.range.1 h'.range.1, ?_⟩, h1, ?_, ?_⟩
  · rw [add_assoc, h'.range.2, h.range.2]
  · rw [e2, Matrix.det_mul, h.det, h2, one_mul]
  · rw [e2, h3, h.form, Matrix.transpose_mul]
    simp only [Matrix.mul_assoc]

theorem Unwinds.inv {A B : AIET P} {δ : P} {w : Label → List Label} (hA : A.Valid) (hB : B.Valid) (h : Unwinds A δ B w) :
    Unwinds A.inv δ B.inv (fun a => (w a).reverse) := by
  have e : A.inv.top.toFinset = A.top.toFinset := List.toFinset_eq_of_perm _ _ hA.perm
  refine ⟨(hB.perm.trans h.labels).trans hA.perm.symm, ⟨h.range.1, ?_⟩, .of_inv hA.inv hB.inv h.towers, ?_, ?_⟩
  · rw [hA.total_inv, hB.total_inv, h.range.2]
  · rw [visits_reverse, e, h.det]
  · rw [visits_reverse, e, AIET.form_inv, AIET.form_inv, h.form]
    simp

theorem Unwinds.congr {A B : AIET P} {δ : P} {w : Label → List Label} (hB : B.Valid) (h : Unwinds A δ B w) {len : Label → P} (hl : ∀ a ∈ B.top, B.len a = len a) :
    Unwinds A δ ⟨B.top, B.bottom, len⟩ w where
  labels := h.labels
  range := ⟨h.range.1, by rw [← h.range.2]; exact congrArg _ (sumLen_congr (fun a ha => (hl a ha).symm))⟩
  towers := h.towers.congr (by simpa using hB) (by simpa using hl)
  det := h.det
  form := h.form

theorem RauzyTop.unwinds_by {A B : AIET P} (hA : A.Valid) (h : RauzyTop A B) :
    ∃ δ a b, A.top.head? = some a ∧ A.bottom.head? = some b ∧ B.len = shorten A.len a (A.len b) ∧ Unwinds A δ B (fun c => if c = b then [b, a] else [c]) := by
  obtain ⟨d, hd, hf⟩ := RauzyStep.fwd hA (.inl h)
  have ht := hf.total_eq
  have h0 := hf.nonneg
  clear hd hf
  obtain ⟨a, b, t, l₁, l₂, len, hlt⟩ := h
  have hs := hA.split
  have ha : a ∈ (a :: t).toFinset := by simp
  have hb : b ∈ (a :: t).toFinset := by simp [hs.b_t]
  have ev := visits_rauzy ha hb hs.b_a
  refine ⟨d, a, b, rfl, rfl, rfl, .refl _, ⟨h0, by rw [add_comm]; exact ht⟩, RauzyTop.towers_eq hlt hA ht, ?_, ?_⟩
  · show (visits (a :: t).toFinset _).det = 1
    rw [ev, Matrix.det_transvection_of_ne]
    exact fun e => hs.b_a (congrArg Subtype.val e).symm
  · show AIET.form _ (a :: t).toFinset = (visits (a :: t).toFinset _).transpose * AIET.form _ (a :: t).toFinset * visits (a :: t).toFinset _
    rw [ev]
    ext x y
    have hx := List.mem_toFinset.mp x.2
    have hy := List.mem_toFinset.mp y.2
    have key := cross_rauzy hA x hx y hy
    have e3 : (Matrix.transvection (⟨a, ha⟩ : (a :: t).toFinset) ⟨b, hb⟩ (1 : ℤ)).transpose = Matrix.transvection ⟨b, hb⟩ ⟨a, ha⟩ 1 := by
      simp [Matrix.transvection]
    rw [e3]
    set F := AIET.form (⟨a :: t, b :: (l₁ ++ a :: l₂), len⟩ : AIET P) (a :: t).toFinset with hF
    have f1 : ∀ u v, ((Matrix.transvection (⟨b, hb⟩ : (a :: t).toFinset) ⟨a, ha⟩ (1 : ℤ) * F : Matrix (a :: t).toFinset (a :: t).toFinset ℤ)) u v = F u v + if u.1 = b then F ⟨a, ha⟩ v else 0 := by
      intro u v
      by_cases h : u.1 = b
      · obtain rfl : u = ⟨b, hb⟩ := Subtype.ext h
        rw [Matrix.transvection_mul_apply_same]; simp
      · rw [Matrix.transvection_mul_apply_of_ne _ _ _ _ (fun e => h (by rw [e])), if_neg h, add_zero]
    have f2 : ∀ (M : Matrix (a :: t).toFinset (a :: t).toFinset ℤ) u v,
        ((M * Matrix.transvection (⟨a, ha⟩ : (a :: t).toFinset) ⟨b, hb⟩ (1 : ℤ) : Matrix (a :: t).toFinset (a :: t).toFinset ℤ)) u v =
        M u v + if v.1 = b then M u ⟨a, ha⟩ else 0 := by
      intro M u v
      by_cases h : v.1 = b
      · obtain rfl : v = ⟨b, hb⟩ := Subtype.ext h
        rw [Matrix.mul_transvection_apply_same]; simp
      · rw [Matrix.mul_transvection_apply_of_ne _ _ _ _ (fun e => h (by rw [e])), if_neg h, add_zero]
    rw [f2, f1, f1]
    have g : ∀ u v, (F u v : ℚ) = cross (a :: t) (b :: (l₁ ++ a :: l₂)) u v := fun u v => AIET.crossing_cast (⟨a :: t, b :: (l₁ ++ a :: l₂), len⟩ : AIET P) u v
    have : ((AIET.form (⟨a :: t, l₁ ++ b :: a :: l₂, shorten len a (len b)⟩ : AIET P) (a :: t).toFinset x y : ℤ) : ℚ) = cross (a :: t) (l₁ ++ b :: a :: l₂) x y :=
      AIET.crossing_cast (⟨a :: t, l₁ ++ b :: a :: l₂, shorten len a (len b)⟩ : AIET P) x y
    rw [← Int.cast_inj (α := ℚ), this, key]
    push_cast
    simp only [g, cross_self, ite_self, add_zero]

theorem RauzyTop.unwinds {A B : AIET P} (hA : A.Valid) (h : RauzyTop A B) : ∃ δ w, Unwinds A δ B w := by
  obtain ⟨δ, a, b, -, -, -, h⟩ := h.unwinds_by hA
  exact ⟨δ, _, h⟩

theorem RauzyStep.unwinds {A B : AIET P} (hA : A.Valid) (h : RauzyStep A B) : ∃ δ w, Unwinds A δ B w := by
  have hB : B.Valid := Steps.valid hA (.single h)
  rcases h with h | h
  · exact h.unwinds hA
  · obtain ⟨δ, w, hw⟩ := h.unwinds hA.inv
    exact ⟨δ, _, hw.inv hA.inv hB.inv⟩

theorem Steps.unwinds {A B : AIET P} (hA : A.Valid) (h : Steps A B) : ∃ δ w, Unwinds A δ B w := by
  induction h with
  | refl => exact ⟨_, _, .refl hA⟩
  | @tail B C h1 h2 ih =>
    obtain ⟨δ, w, hw⟩ := ih
    obtain ⟨δ', u, hu⟩ := h2.unwinds (Steps.valid hA h1)
    exact ⟨_, _, hw.trans (Steps.valid hA h1) (Steps.valid hA (h1.tail h2)) hu⟩

end Verif
