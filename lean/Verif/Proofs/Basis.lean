import Verif.SpecBasis
import Verif.Proofs.Twin
import Verif.Proofs.Commensurable
import Mathlib.LinearAlgebra.Basis.VectorSpace
import Mathlib.LinearAlgebra.Finsupp.LinearCombination
import Mathlib.LinearAlgebra.Isomorphisms

/-!
# A change of the basis of the coefficients
-/

namespace Verif

set_option linter.unusedSectionVars false

/-! ### Linear algebra -/

theorem exists_linear_of_relations {V W : Type} [AddCommGroup V] [Module ℚ V] [AddCommGroup W] [Module ℚ W] {n : ℕ} (u : Fin n → V) (w : Fin n → W)
    (h : ∀ q : Fin n → ℚ, ∑ i, q i • u i = 0 → ∑ i, q i • w i = 0) : ∃ Φ : V →ₗ[ℚ] W, ∀ i, Φ (u i) = w i := by
  let U := Fintype.linearCombination ℚ u
  let X := Fintype.linearCombination ℚ w
  have hk : LinearMap.ker U ≤ LinearMap.ker X := by
    intro q hq
    rw [LinearMap.mem_ker] at hq ⊢
    exact h q hq
  obtain ⟨Φ, hΦ⟩ := LinearMap.exists_extend (((LinearMap.ker U).liftQ X hk) ∘ₗ U.quotKerEquivRange.symm.toLinearMap)
  refine ⟨Φ, fun i => ?_⟩
  have hu : u i = U (Pi.single i 1) := by
    show _ = ∑ j, (Pi.single i 1 : Fin n → ℚ) j • u j
    simp [Pi.single_apply]
  have hw : w i = X (Pi.single i 1) := by
    show _ = ∑ j, (Pi.single i 1 : Fin n → ℚ) j • w j
    simp [Pi.single_apply]
  have hm : U (Pi.single i 1) ∈ LinearMap.range U := ⟨_, rfl⟩
  have h1 := LinearMap.congr_fun hΦ ⟨U (Pi.single i 1), hm⟩
  rw [hu, hw]
  simp only [LinearMap.comp_apply, Submodule.subtype_apply] at h1
  rw [h1]
  have h2 : U.quotKerEquivRange.symm ⟨U (Pi.single i 1), hm⟩ = (LinearMap.ker U).mkQ (Pi.single i 1) := by
    rw [LinearEquiv.symm_apply_eq]
    rfl
  show (LinearMap.ker U).liftQ X hk (U.quotKerEquivRange.symm _) = _
  rw [h2]
  exact Submodule.liftQ_apply _ _ _

theorem exists_denominator (q : Label → ℚ) : ∀ l : List Label, ∃ N : ℕ, N ≠ 0 ∧ ∃ n : Label → ℤ, ∀ x ∈ l, (N : ℚ) * q x = n x := by
  intro l
  refine ⟨(l.map (fun x => (q x).den)).prod, ?_, fun x => ((((l.map (fun x => (q x).den)).prod : ℕ) : ℚ) * q x).num, ?_⟩
  · intro h0
    obtain ⟨x, hx, h⟩ := List.mem_map.1 (List.prod_eq_zero_iff.1 h0)
    exact (q x).den_nz h
  · intro x hx
    obtain ⟨m, hm⟩ := List.dvd_prod (List.mem_map_of_mem (f := fun x => (q x).den) hx)
    have : (((l.map (fun x => (q x).den)).prod : ℕ) : ℚ) * q x = ((m * (q x).num : ℤ) : ℚ) := by
      rw [hm]
      push_cast
      have := Rat.den_mul_eq_num (q x)
      linear_combination (m : ℚ) * this
    simp only
    rw [this, Rat.num_intCast]

theorem sum_smul_smul {V : Type} [AddCommGroup V] [Module ℚ V] (l : List Label) (N : ℚ) (q : Label → ℚ) (n : Label → ℤ) (u : Label → V)
    (h : ∀ x ∈ l, N * q x = n x) : (l.map (fun x => n x • u x)).sum = N • (l.map (fun x => q x • u x)).sum := by
  induction l with
  | nil => simp
  | cons a l ih =>
    simp only [List.map_cons, List.sum_cons, smul_add, smul_smul]
    rw [ih (fun x hx => h x (List.mem_cons_of_mem _ hx)), h a List.mem_cons_self, Int.cast_smul_eq_zsmul]

theorem sum_getElem {V : Type} [AddCommMonoid V] (l : List Label) (f : Label → V) : (l.map f).sum = ∑ i : Fin l.length, f l[i] := by
  induction l with
  | nil => simp
  | cons a l ih =>
    rw [List.map_cons, List.sum_cons, ih]
    exact (Fin.sum_univ_succ (fun i : Fin (l.length + 1) => f (a :: l)[i])).symm

/-- When `w` satisfies all relations of `u` then there is a linear map which takes `u` to `w`. -/
theorem exists_linear_of_list {V W : Type} [AddCommGroup V] [Module ℚ V] [AddCommGroup W] [Module ℚ W] {l : List Label} (hl : l.Nodup) (u : Label → V) (w : Label → W)
    (h : ∀ n : Label → ℤ, (l.map (fun x => n x • u x)).sum = 0 → (l.map (fun x => n x • w x)).sum = 0) : ∃ Φ : V →ₗ[ℚ] W, ∀ x ∈ l, Φ (u x) = w x := by
  obtain ⟨Φ, hΦ⟩ := exists_linear_of_relations (fun i : Fin l.length => u l[i]) (fun i => w l[i]) (by
    intro q hq
    have key : ∀ {V : Type} [AddCommGroup V] [Module ℚ V] (u : Label → V),
        ∑ i, q i • u l[i] = (l.map (fun x => (if h : l.idxOf x < l.length then q ⟨_, h⟩ else 0) • u x)).sum := by
      intro V _ _ u
      rw [sum_getElem]
      refine Finset.sum_congr rfl (fun i _ => ?_)
      congr 1
      have : l.idxOf l[i] = i := hl.idxOf_getElem i i.2
      simp only [this, i.2, dite_true, Fin.eta]
    rw [key] at hq ⊢
    obtain ⟨N, hN, n, hn⟩ := exists_denominator (fun x => if h : l.idxOf x < l.length then q ⟨_, h⟩ else 0) l
    have h1 := h n (by rw [sum_smul_smul l N _ n u hn, hq, smul_zero])
    rw [sum_smul_smul l N _ n w hn] at h1
    exact (smul_eq_zero.1 h1).resolve_left (by exact_mod_cast hN))
  refine ⟨Φ, fun x hx => ?_⟩
  obtain ⟨i, hi, rfl⟩ := List.mem_iff_getElem.1 hx
  exact hΦ ⟨i, hi⟩

/-! ### Change of coordinates -/

section abstract

variable {T : Type} [CommRing T] [LinearOrder T] [IsStrictOrderedRing T] {d d' : ℕ} {c : T →+ (Fin d → ℚ)} {c' : T →+ (Fin d' → ℚ)}

theorem off_hom {A : Type} [AddCommGroup A] {φ ψ : T →+ A} {len : Label → T} : ∀ {l : List Label}, (∀ a ∈ l, φ (len a) = ψ (len a)) → ∀ a,
    φ (off len l a) = ψ (off len l a)
  | [], _, a => by simp [off]
  | b :: l, h, a => by
    unfold off
    split
    · simp
    · rw [map_add, map_add, h b List.mem_cons_self, off_hom (fun a ha => h a (List.mem_cons_of_mem _ ha)) a]

theorem transl_hom {A : Type} [AddCommGroup A] {φ ψ : T →+ A} {E : AIET T} (hE : E.Valid) (h : ∀ a ∈ E.top, φ (E.len a) = ψ (E.len a)) (a : Label) :
    φ (E.transl a) = ψ (E.transl a) := by
  unfold AIET.transl
  rw [map_sub, map_sub, off_hom (fun a ha => h a (hE.perm.mem_iff.1 ha)), off_hom h]

/-- A functional in terms of coordinates. -/
theorem functional_eq (φ : (Fin d → ℚ) →ₗ[ℚ] ℚ) (v : Fin d → ℚ) : φ v = ∑ i, φ (Pi.single i 1) * v i := by
  conv_lhs => rw [← Finset.univ_sum_single v]
  rw [map_sum]
  refine Finset.sum_congr rfl (fun i _ => ?_)
  have : (Pi.single i (v i) : Fin d → ℚ) = v i • Pi.single i 1 := by
    rw [← Pi.single_smul, smul_eq_mul, mul_one]
  rw [this, map_smul, smul_eq_mul, mul_comm]

theorem mem_pairs {i j : ℕ} : (i, j) ∈ IET.pairs d ↔ i < j ∧ j < d := by
  unfold IET.pairs
  simp only [List.mem_flatMap, List.mem_range, List.mem_map, List.mem_range'_1, Prod.mk.injEq]
  constructor
  · rintro ⟨a, ha, b, hb, rfl, rfl⟩; omega
  · rintro ⟨h1, h2⟩; exact ⟨i, by omega, j, by omega, rfl, rfl⟩

theorem safList_zero_iff {A : AIET T} : (∀ x ∈ safList c A, x = 0) ↔ ∀ i j : Fin d, i < j → A.saf (fun t => c t i) (fun t => c t j) = 0 := by
  have hcoef : ∀ (i : Fin d), (fun t => c t i) = ⇑(coefAt c i) := by
    intro i; funext t; simp [coefAt]
  unfold safList
  constructor
  · intro h i j hij
    rw [if_neg (by have := j.2; have : i.1 < j.1 := hij; omega)] at h
    rw [hcoef, hcoef]
    exact h _ (List.mem_map.2 ⟨(i, j), mem_pairs.2 ⟨hij, j.2⟩, rfl⟩)
  · intro h x hx
    split at hx
    · simp at hx
    · obtain ⟨⟨i, j⟩, hp, rfl⟩ := List.mem_map.1 hx
      obtain ⟨h1, h2⟩ := mem_pairs.1 hp
      have := h ⟨i, by omega⟩ ⟨j, h2⟩ h1
      rw [hcoef, hcoef] at this
      exact this

theorem saf_self (φ : T → ℚ) (A : AIET T) : A.saf φ φ = 0 := by
  unfold AIET.saf
  simp

theorem saf_anti (φ ψ : T → ℚ) (A : AIET T) : A.saf φ ψ = - A.saf ψ φ := by
  unfold AIET.saf
  induction A.top with
  | nil => simp
  | cons a l ih => simp only [List.map_cons, List.sum_cons, ih]; ring

theorem saf_sum (f g : Fin d → ℚ) (A : AIET T) (e : T → Fin d → ℚ) :
    A.saf (fun t => ∑ i, f i * e t i) (fun t => ∑ j, g j * e t j) = ∑ i, ∑ j, f i * g j * A.saf (fun t => e t i) (fun t => e t j) := by
  unfold AIET.saf
  induction A.top with
  | nil => simp
  | cons a l ih =>
    simp only [List.map_cons, List.sum_cons, ih, mul_add, Finset.sum_add_distrib]
    congr 1
    rw [Finset.sum_mul_sum, Finset.sum_mul_sum, Finset.sum_comm (f := fun i j => g i * _ * _), ← Finset.sum_sub_distrib]
    refine Finset.sum_congr rfl (fun i _ => ?_)
    rw [← Finset.sum_sub_distrib]
    refine Finset.sum_congr rfl (fun j _ => ?_)
    ring

/-- If the SAF invariant vanishes in some coordinates then it vanishes in all. -/
theorem saf_functionals {A : AIET T} (h : ∀ x ∈ safList c A, x = 0) (φ ψ : (Fin d → ℚ) →ₗ[ℚ] ℚ) : A.saf (fun t => φ (c t)) (fun t => ψ (c t)) = 0 := by
  rw [safList_zero_iff] at h
  have e1 : (fun t => φ (c t)) = fun t => ∑ i, φ (Pi.single i 1) * c t i := by funext t; exact functional_eq φ _
  have e2 : (fun t => ψ (c t)) = fun t => ∑ i, ψ (Pi.single i 1) * c t i := by funext t; exact functional_eq ψ _
  rw [e1, e2, saf_sum]
  refine Finset.sum_eq_zero (fun i _ => Finset.sum_eq_zero (fun j _ => ?_))
  rcases lt_trichotomy i j with hij | rfl | hij
  · rw [h i j hij, mul_zero]
  · rw [saf_self, mul_zero]
  · rw [saf_anti, h j i hij, neg_zero, mul_zero]

theorem saf_congr {φ ψ φ' ψ' : T → ℚ} {A : AIET T} (h1 : ∀ a ∈ A.top, φ (A.len a) = φ' (A.len a)) (h2 : ∀ a ∈ A.top, ψ (A.len a) = ψ' (A.len a))
    (h3 : ∀ a ∈ A.top, φ (A.transl a) = φ' (A.transl a)) (h4 : ∀ a ∈ A.top, ψ (A.transl a) = ψ' (A.transl a)) : A.saf φ ψ = A.saf φ' ψ' := by
  unfold AIET.saf
  refine congrArg List.sum (List.map_congr_left (fun a ha => ?_))
  rw [h1 a ha, h2 a ha, h3 a ha, h4 a ha]

theorem safList_zero_of_linear (Φ : (Fin d → ℚ) →ₗ[ℚ] (Fin d' → ℚ)) {A : AIET T} (hA : A.Valid) (hΦ : ∀ a ∈ A.top, c' (A.len a) = Φ (c (A.len a)))
    (h : ∀ x ∈ safList c A, x = 0) : ∀ x ∈ safList c' A, x = 0 := by
  rw [safList_zero_iff]
  intro i j _
  have ht : ∀ a, c' (A.transl a) = Φ (c (A.transl a)) := transl_hom (φ := c') (ψ := Φ.toAddMonoidHom.comp c) hA hΦ
  rw [← saf_functionals h ((LinearMap.proj i).comp Φ) ((LinearMap.proj j).comp Φ)]
  apply saf_congr
  · intro a ha; rw [hΦ a ha]; rfl
  · intro a ha; rw [hΦ a ha]; rfl
  · intro a ha; rw [ht a]; rfl
  · intro a ha; rw [ht a]; rfl

theorem dot_functional (φ : (Fin d → ℚ) →ₗ[ℚ] ℚ) (v : Label → Fin d → ℚ) : ∀ (l : List Label) (x : List ℚ),
    dot (l.map (fun a => φ (v a))) x = ∑ i, φ (Pi.single i 1) * dot (l.map (fun a => v a i)) x
  | [], x => by simp
  | _ :: _, [] => by simp
  | a :: l, y :: x => by
    simp only [List.map_cons, dot_cons, dot_functional φ v l x]
    rw [functional_eq φ (v a), Finset.sum_mul, ← Finset.sum_add_distrib]
    exact Finset.sum_congr rfl (fun i _ => by ring)

theorem PosRelation.of_linear (Φ : (Fin d → ℚ) →ₗ[ℚ] (Fin d' → ℚ)) {A : AIET T} (hA : A.Valid) (hΦ : ∀ a ∈ A.top, c' (A.len a) = Φ (c (A.len a)))
    (h : PosRelation c A) : PosRelation c' A := by
  obtain ⟨x, h1, h2, h3, h4⟩ := h
  refine ⟨x, h1, h2, h3, fun i hi => ?_⟩
  have ht : ∀ a, c' (A.transl a) = Φ (c (A.transl a)) := transl_hom (φ := c') (ψ := Φ.toAddMonoidHom.comp c) hA hΦ
  have e : (fun a => coefAt c' i (A.transl a)) = fun a => ((LinearMap.proj ⟨i, hi⟩).comp Φ : (Fin d → ℚ) →ₗ[ℚ] ℚ) (c (A.transl a)) := by
    funext a
    simp only [coefAt, AddMonoidHom.coe_mk, ZeroHom.coe_mk, hi, dite_true, ht]
    rfl
  rw [e, dot_functional]
  refine Finset.sum_eq_zero (fun j _ => ?_)
  have := h4 j j.2
  simp only [coefAt, AddMonoidHom.coe_mk, ZeroHom.coe_mk, j.2, dite_true, Fin.eta] at this
  rw [this, mul_zero]

/-- Finitely many elements of a group that embeds into the rationals are multiples of one of its elements. -/
theorem exists_unit (G : AddSubgroup T) (φ : T →+ ℚ) (hφ : ∀ t ∈ G, φ t = 0 → t = 0) : ∀ l : List T, (∀ x ∈ l, x ∈ G) →
    ∃ u ∈ G, ∀ x ∈ l, ∃ k : ℤ, x = k • u
  | [], _ => ⟨0, G.zero_mem, fun x hx => by simp at hx⟩
  | x :: l, h => by
    obtain ⟨u, hu, hl⟩ := exists_unit G φ hφ l (fun x hx => h x (List.mem_cons_of_mem _ hx))
    have hx := h x List.mem_cons_self
    -- a common denominator
    set p := φ x with hp
    set q := φ u with hq
    let a : ℤ := p.num * q.den
    let b : ℤ := q.num * p.den
    have ha : (p.den * q.den : ℚ) * p = a := by
      have := Rat.den_mul_eq_num p
      simp only [a]; push_cast; linear_combination (q.den : ℚ) * this
    have hb : (p.den * q.den : ℚ) * q = b := by
      have := Rat.den_mul_eq_num q
      simp only [b]; push_cast; linear_combination (p.den : ℚ) * this
    have hD : (p.den * q.den : ℚ) ≠ 0 := by
      have := p.den_nz; have := q.den_nz; positivity
    obtain ⟨a', ha'⟩ := Int.gcd_dvd_left (a := a) (b := b)
    obtain ⟨b', hb'⟩ := Int.gcd_dvd_right (a := a) (b := b)
    have hg := Int.gcd_eq_gcd_ab a b
    set g : ℤ := (Int.gcd a b : ℤ) with hgdef
    set X := Int.gcdA a b
    set Y := Int.gcdB a b
    have hv : X • x + Y • u ∈ G := G.add_mem (G.zsmul_mem hx _) (G.zsmul_mem hu _)
    have hφv : (p.den * q.den : ℚ) * φ (X • x + Y • u) = g := by
      rw [map_add, map_zsmul, map_zsmul, ← hp, ← hq, hg]
      push_cast
      simp only [zsmul_eq_mul]
      linear_combination (X : ℚ) * ha + (Y : ℚ) * hb
    have key : ∀ (y : T) (m m' : ℤ), y ∈ G → (p.den * q.den : ℚ) * φ y = m → m = g * m' → y = m' • (X • x + Y • u) := by
      intro y m m' hy h1 h2
      have h3 : y - m' • (X • x + Y • u) ∈ G := G.sub_mem hy (G.zsmul_mem hv _)
      have h4 := hφ _ h3 (by
        apply mul_left_cancel₀ hD
        rw [map_sub, map_zsmul, mul_sub, zsmul_eq_mul, mul_zero, h1, h2]
        push_cast
        linear_combination (-(m' : ℚ)) * hφv)
      exact sub_eq_zero.1 h4
    refine ⟨X • x + Y • u, hv, ?_⟩
    intro y hy
    rcases List.mem_cons.1 hy with rfl | hy
    · exact ⟨a', key _ a a' hx ha ha'⟩
    · obtain ⟨k, rfl⟩ := hl y hy
      refine ⟨k * b', ?_⟩
      rw [mul_smul, ← key u b b' hu hb hb']

/-- All lengths are multiples of some length. -/
def Commensurable (A : AIET T) : Prop := ∃ u : T, 0 < u ∧ ∃ k : Label → ℕ, Mult u k A

theorem commensurable_of_rank (φ : T →+ ℚ) {A : AIET T} (hA : A.Valid)
    (h : ∀ t ∈ AddSubgroup.closure {t | ∃ a ∈ A.top, t = A.len a}, φ t = 0 → t = 0) : Commensurable A := by
  obtain ⟨u, -, hu⟩ := exists_unit _ φ h (A.top.map A.len) (by
    intro x hx
    obtain ⟨a, ha, rfl⟩ := List.mem_map.1 hx
    exact AddSubgroup.subset_closure ⟨a, ha, rfl⟩)
  have h0 : u ≠ 0 := by
    rintro rfl
    cases ht : A.top with
    | nil => exact hA.ne_nil ht
    | cons a l =>
      have hm : a ∈ A.top := by rw [ht]; exact List.mem_cons_self
      obtain ⟨k, hk⟩ := hu _ (List.mem_map_of_mem hm)
      have := hA.pos a hm
      rw [hk, smul_zero] at this
      exact lt_irrefl _ this
  have main : ∀ u : T, 0 < u → (∀ x ∈ A.top.map A.len, ∃ k : ℤ, x = k • u) → Commensurable A := by
    intro u hpos hu
    have hu : ∀ a, ∃ k : ℕ, a ∈ A.top → A.len a = (k : T) * u := by
      intro a
      by_cases ha : a ∈ A.top
      · obtain ⟨k, hk⟩ := hu _ (List.mem_map_of_mem ha)
        have hpa := hA.pos a ha
        rw [hk, zsmul_eq_mul] at hpa
        have hk0 : 0 ≤ k := by
          by_contra hc
          have : (k : T) ≤ 0 := by exact_mod_cast (not_le.1 hc).le
          nlinarith
        refine ⟨k.toNat, fun _ => ?_⟩
        rw [hk, zsmul_eq_mul]
        congr 1
        have := Int.toNat_of_nonneg hk0
        exact_mod_cast congrArg (fun z : ℤ => (z : T)) this.symm
      · exact ⟨0, fun h => absurd h ha⟩
    choose k hk using hu
    exact ⟨u, hpos, k, fun a ha => hk a ha⟩
  rcases lt_or_gt_of_ne h0 with hneg | hpos
  · refine main (-u) (by linarith) (fun x hx => ?_)
    obtain ⟨k, hk⟩ := hu x hx
    exact ⟨-k, by rw [hk]; simp⟩
  · exact main u hpos hu

end abstract

section model

variable {σ T ε : Type} [CommRing T] [LinearOrder T] [IsStrictOrderedRing T] {O : LengthsOps σ T} {d : ℕ} {c : T →+ (Fin d → ℚ)} {H : LawfulLengths O c ε}
  {f : List Label → σ → M (List (List ℚ))}

/-- Lengths whose coefficients are given by an additive function. -/
def LengthsOps.withCoordinates (O : LengthsOps σ T) {d' : ℕ} (c' : T →+ (Fin d' → ℚ)) : LengthsOps σ T :=
  O.rebase (fun l s => do return (← l.mapM (fun a => O.get a s)).map (fun x => List.ofFn (c' x)))

theorem mapM_ok_coeffs {α β : Type} (g : α → M β) (g' : α → β) : ∀ l : List α, (∀ x ∈ l, g x = .ok (g' x)) → l.mapM g = .ok (l.map g')
  | [], _ => rfl
  | a :: l, h => by
    rw [List.mapM_cons, h a List.mem_cons_self, mapM_ok_coeffs g g' l (fun x hx => h x (List.mem_cons_of_mem _ hx))]
    rfl

/-- Other coordinates for lawful lengths. -/
def LawfulLengths.withCoordinates (H : LawfulLengths O c ε) {d' : ℕ} (c' : T →+ (Fin d' → ℚ)) : LawfulLengths (O.withCoordinates c') c' ε where
  inv := H.inv
  dom := H.dom
  len := H.len
  stack := H.stack
  ext := H.ext
  mv := H.mv
  push_spec := H.push_spec
  pop_spec := H.pop_spec
  cmp_spec := H.cmp_spec
  cmp2_spec := H.cmp2_spec
  get_spec := H.get_spec
  coefficients_spec s l hs hl := by
    show (l.mapM (fun a => O.get a s) >>= fun x => pure (x.map (fun x => List.ofFn (c' x)))) = _
    rw [mapM_ok_coeffs _ (H.len s) l (fun x hx => H.get_spec s x hs (hl x hx))]
    simp only [bind, Except.bind, pure, Except.pure, List.map_map]
    rfl
  subtract_spec := H.subtract_spec
  subtractRepeated_spec := H.subtractRepeated_spec
  forget_spec := H.forget_spec

theorem LawfulLengths.Ok.withCoordinates {E : IET T} {s : σ} (h : H.Ok E s) {d' : ℕ} (c' : T →+ (Fin d' → ℚ)) : (H.withCoordinates c').Ok E s :=
  ⟨h.inv, h.stack, h.dom, h.valid, h.nonneg⟩

/-- The coordinates used in a call. -/
structure Choice (H : LawfulLengths O c ε) (f : List Label → σ → M (List (List ℚ))) (E : IET T) (s : σ) where
  d' : ℕ
  c' : T →+ (Fin d' → ℚ)
  Φ : (Fin d → ℚ) →ₗ[ℚ] (Fin d' → ℚ)
  Ψ : (Fin d' → ℚ) →ₗ[ℚ] (Fin d → ℚ)
  pos : d' ≠ 0
  eq : (O.rebase f).coefficients E.top s = (O.withCoordinates c').coefficients E.top s
  toC' : ∀ a ∈ E.top, c' (H.len s a) = Φ (c (H.len s a))
  toC : ∀ a ∈ E.top, c (H.len s a) = Ψ (c' (H.len s a))

theorem exists_choice (hf : H.Coordinates f) (hc : ∀ x, c x = 0 → x = 0) {E : IET T} {s : σ} (h : H.Ok E s) : Nonempty (Choice H f E s) := by
  obtain ⟨d', w, h1, h2⟩ := hf s E.top h.inv h.dom h.valid.nodup
  have hcn : ∀ n : Label → ℤ, c (E.top.map (fun x => n x • H.len s x)).sum = (E.top.map (fun x => n x • c (H.len s x))).sum := by
    intro n
    rw [map_list_sum, List.map_map]
    refine congrArg List.sum (List.map_congr_left (fun a _ => ?_))
    exact map_zsmul c _ _
  obtain ⟨Φ, hΦ⟩ := exists_linear_of_list (l := E.top) h.valid.nodup (fun x => c (H.len s x)) w (by
    intro n hn
    rw [h2]
    apply hc
    rw [hcn, hn])
  obtain ⟨Ψ, hΨ⟩ := exists_linear_of_list (l := E.top) h.valid.nodup w (fun x => c (H.len s x)) (by
    intro n hn
    rw [h2] at hn
    rw [← hcn, hn, map_zero])
  refine ⟨⟨d', Φ.toAddMonoidHom.comp c, Φ, Ψ, ?_, ?_, fun a _ => rfl, ?_⟩⟩
  · rintro rfl
    obtain ⟨a, b, ha, -⟩ := h.valid.heads
    have ha : a ∈ E.top := List.mem_of_mem_head? ha
    have h3 : c (H.len s a) = 0 := by
      rw [← hΨ a ha, Subsingleton.elim (w a) 0, map_zero]
    have := h.valid.pos a ha
    rw [show (H.abs E s).len a = 0 from hc _ h3] at this
    exact lt_irrefl _ this
  · rw [(H.withCoordinates (Φ.toAddMonoidHom.comp c)).coefficients_spec s E.top h.inv h.dom]
    show f E.top s = _
    rw [h1]
    refine congrArg Except.ok (List.map_congr_left (fun a ha => ?_))
    rw [← hΦ a ha]
    rfl
  · intro a ha
    rw [← hΨ a ha, ← hΦ a ha]
    rfl

variable {E F : IET T} {s : σ}

theorem Choice.rawSaf (C : Choice H f E s) (h : H.Ok E s) : E.rawSaf (O.rebase f) s = .ok (safList C.c' (H.abs E s)) := by
  have e : E.rawSaf (O.rebase f) s = E.rawSaf (O.withCoordinates C.c') s := by
    simp only [IET.rawSaf, IET.translations, IET.labelToCoefficients, IET.coefficients, C.eq]
  rw [e]
  exact rawSaf_spec (H.withCoordinates C.c') (h.withCoordinates C.c')

theorem Choice.zero (C : Choice H f E s) (h : H.Ok E s) : (∀ x ∈ safList C.c' (H.abs E s), x = 0) ↔ ∀ x ∈ safList c (H.abs E s), x = 0 :=
  ⟨safList_zero_of_linear C.Ψ h.valid C.toC, safList_zero_of_linear C.Φ h.valid C.toC'⟩

theorem Choice.pos_iff (C : Choice H f E s) (h : H.Ok E s) : PosRelation C.c' (H.abs E s) ↔ PosRelation c (H.abs E s) :=
  ⟨PosRelation.of_linear C.Ψ h.valid C.toC, PosRelation.of_linear C.Φ h.valid C.toC'⟩

theorem safList_length (A : AIET T) : (safList c A).length = 0 ↔ d ≤ 1 := by
  unfold safList
  by_cases h : d ≤ 1
  · simp [h]
  · rw [if_neg h]
    simp only [List.length_map, h, iff_false]
    intro h0
    have : (0, 1) ∈ IET.pairs d := mem_pairs.2 ⟨by omega, by omega⟩
    rw [List.length_eq_zero_iff.1 h0] at this
    simp at this

theorem commensurable_of_le_one {d' : ℕ} (c' : T →+ (Fin d' → ℚ)) (hd : d' ≤ 1) {A : AIET T} (hA : A.Valid)
    (h : ∀ t ∈ AddSubgroup.closure {t | ∃ a ∈ A.top, t = A.len a}, c' t = 0 → t = 0) : Commensurable A := by
  refine commensurable_of_rank (coefAt c' 0) hA (fun t ht h0 => h t ht ?_)
  funext i
  have hi : i.1 = 0 := by have := i.2; omega
  have hd : 0 < d' := by have := i.2; omega
  simp only [coefAt, AddMonoidHom.coe_mk, ZeroHom.coe_mk, hd, dite_true] at h0
  rw [Pi.zero_apply, ← h0]
  exact congrArg (c' t) (Fin.ext hi)

theorem Choice.length (C : Choice H f E s) (hc : ∀ x, c x = 0 → x = 0) (h : H.Ok E s) :
    Commensurable (H.abs E s) ∨ ((safList C.c' (H.abs E s)).length = 0 ↔ d ≤ 1) := by
  rw [safList_length]
  by_cases h1 : d ≤ 1
  · exact .inl (commensurable_of_le_one c h1 h.valid (fun t _ => hc t))
  · by_cases h2 : C.d' ≤ 1
    · refine .inl (commensurable_of_le_one C.c' h2 h.valid (fun t ht h0 => hc t ?_))
      have : c t = C.Ψ (C.c' t) := AddMonoidHom.eqOn_closure (f := c) (g := C.Ψ.toAddMonoidHom.comp C.c')
        (by rintro _ ⟨a, ha, rfl⟩; exact C.toC a ha) ht
      rw [this, h0, map_zero]
    · exact .inr (by simp [h1, h2])

end model

end Verif
