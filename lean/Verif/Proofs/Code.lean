import Verif.Proofs.Cover
import Verif.SpecItinerary

/-!
# Return times

The points of an interval of an induced IET all follow the same intervals of the original IET until they return.
-/

namespace Verif

set_option linter.unusedSectionVars false

variable {P : Type} [CommRing P] [LinearOrder P] [IsStrictOrderedRing P]

variable {E : AIET P}

theorem AIET.maps_iff_mapsBy {x y : P} : E.Maps x y ↔ ∃ a, E.MapsBy a x y :=
  ⟨fun ⟨a, h, h'⟩ => ⟨a, h, h'⟩, fun ⟨a, h, h'⟩ => ⟨a, h, h'⟩⟩

theorem AIET.Valid.mapsBy_inv (h : E.Valid) {a : Label} {x y : P} (hm : E.MapsBy a x y) : E.inv.MapsBy a y x := by
  obtain ⟨h1, h2, h3, h4⟩ := hm
  refine ⟨h.perm.mem_iff.mpr h1, ?_, ?_, ?_⟩ <;> simp only [AIET.inv] <;> linarith

theorem AIET.path_append {u v : List Label} {x y : P} : E.Path (u ++ v) x y ↔ ∃ z, E.Path u x z ∧ E.Path v z y := by
  induction u generalizing x with
  | nil => simp [AIET.Path]
  | cons a u ih =>
    simp only [List.cons_append, AIET.Path, ih]
    constructor
    · rintro ⟨z, h1, z', h2, h3⟩; exact ⟨z', ⟨z, h1, h2⟩, h3⟩
    · rintro ⟨z', ⟨z, h1, h2⟩, h3⟩; exact ⟨z, h1, z', h2, h3⟩

theorem AIET.Valid.path_inv (h : E.Valid) {w : List Label} {x y : P} (hp : E.Path w x y) : E.inv.Path w.reverse y x := by
  induction w generalizing x with
  | nil => exact hp.symm
  | cons a w ih =>
    obtain ⟨z, h1, h2⟩ := hp
    rw [List.reverse_cons, AIET.path_append]
    exact ⟨z, ih h2, x, h.mapsBy_inv h1, rfl⟩

theorem AIET.Path.iter {w : List Label} {x y : P} (hp : E.Path w x y) : Iter E.Maps w.length x y := by
  induction w generalizing x with
  | nil => exact hp
  | cons a w ih =>
    obtain ⟨z, h1, h2⟩ := hp
    exact ⟨z, AIET.maps_iff_mapsBy.mpr ⟨a, h1⟩, ih h2⟩

theorem Iter.path {n : ℕ} {x y : P} (h : Iter E.Maps n x y) : ∃ w, w.length = n ∧ E.Path w x y := by
  induction n generalizing x with
  | zero => exact ⟨[], rfl, h⟩
  | succ n ih =>
    obtain ⟨z, h1, h2⟩ := h
    obtain ⟨w, h3, h4⟩ := ih h2
    obtain ⟨a, ha⟩ := AIET.maps_iff_mapsBy.mp h1
    exact ⟨a :: w, by simp [h3], z, ha, h4⟩

/-- Along the same intervals all points move by the same amount. -/
theorem AIET.Path.transl {w : List Label} {x y x' y' : P} (hp : E.Path w x y) (hp' : E.Path w x' y') : y - x = y' - x' := by
  induction w generalizing x x' with
  | nil => simp only [AIET.Path] at hp hp'; rw [hp, hp']; ring
  | cons a w ih =>
    obtain ⟨z, h1, h2⟩ := hp
    obtain ⟨z', h1', h2'⟩ := hp'
    have := ih h2 h2'
    have e1 := h1.2.2.2
    have e2 := h1'.2.2.2
    linear_combination this + e1 - e2

theorem iter_unique {R : P → P → Prop} (hR : ∀ x y z, R x y → R x z → y = z) {n : ℕ} {x y z : P} (h : Iter R n x y) (h' : Iter R n x z) : y = z := by
  induction n generalizing x with
  | zero => exact h.symm.trans h'
  | succ n ih =>
    obtain ⟨u, h1, h2⟩ := h
    obtain ⟨u', h1', h2'⟩ := h'
    rw [hR _ _ _ h1 h1'] at h2
    exact ih h2 h2'

theorem iter_add {R : P → P → Prop} {m n : ℕ} {x y : P} : Iter R (m + n) x y ↔ ∃ z, Iter R m x z ∧ Iter R n z y := by
  induction m generalizing x with
  | zero => simp [Iter]
  | succ m ih =>
    rw [show m + 1 + n = (m + n) + 1 by omega]
    simp only [Iter, ih]
    constructor
    · rintro ⟨z, h1, z', h2, h3⟩; exact ⟨z', ⟨z, h1, h2⟩, h3⟩
    · rintro ⟨z', ⟨z, h1, h2⟩, h3⟩; exact ⟨z, h1, z', h2, h3⟩

theorem AIET.Path.mem {w : List Label} {x y : P} (hp : E.Path w x y) : ∀ a ∈ w, a ∈ E.top := by
  induction w generalizing x with
  | nil => simp
  | cons a w ih =>
    obtain ⟨z, h1, h2⟩ := hp
    simp only [List.forall_mem_cons]
    exact ⟨h1.1, ih h2⟩

theorem AIET.Valid.exists_mapsBy (h : E.Valid) {a : Label} (ha : a ∈ E.top) : ∃ x y, E.MapsBy a x y :=
  ⟨off E.len E.top a, _, ha, le_refl _, by have := h.pos a ha; linarith, rfl⟩

/-! ### Excursions -/

theorem AIET.Excursion.ne_nil {S : P → Prop} {w : List Label} {x y : P} (h : E.Excursion S w x y) : w ≠ [] := by
  rintro rfl
  exact h

theorem AIET.Excursion.path {S : P → Prop} : ∀ {w : List Label} {x y : P}, E.Excursion S w x y → E.Path w x y
  | [a], _, y, h => ⟨y, h, rfl⟩
  | a :: b :: w, _, _, ⟨z, h1, _, h3⟩ => ⟨z, h1, AIET.Excursion.path (w := b :: w) h3⟩

theorem AIET.Excursion.append {S : P → Prop} {v : List Label} {z y : P} (hz : ¬ S z) (hv : E.Excursion S v z y) :
    ∀ {u : List Label} {x : P}, E.Excursion S u x z → E.Excursion S (u ++ v) x y
  | [a], x, h => by
    cases v with
    | nil => exact absurd hv id
    | cons b v => exact ⟨z, h, hz, hv⟩
  | a :: b :: u, x, ⟨z', h1, h2, h3⟩ => ⟨z', h1, h2, AIET.Excursion.append hz hv (u := b :: u) h3⟩

theorem AIET.Excursion.mono {S S' : P → Prop} (hS : ∀ x, S' x → S x) :
    ∀ {w : List Label} {x y : P}, E.Excursion S w x y → E.Excursion S' w x y
  | [_], _, _, h => h
  | _ :: b :: w, _, _, ⟨z, h1, h2, h3⟩ => ⟨z, h1, fun h => h2 (hS _ h), AIET.Excursion.mono hS (w := b :: w) h3⟩

theorem AIET.Excursion.inv {S : P → Prop} (hE : E.Valid) :
    ∀ {w : List Label} {x y : P}, E.Excursion S w x y → E.inv.Excursion S w.reverse y x
  | [_], _, _, h => hE.mapsBy_inv h
  | a :: b :: w, x, _, ⟨z, h1, h2, h3⟩ => by
    rw [List.reverse_cons]
    exact AIET.Excursion.append (u := (b :: w).reverse) h2 (show E.inv.Excursion S [a] z x from hE.mapsBy_inv h1)
      (AIET.Excursion.inv hE (w := b :: w) h3)

theorem AIET.Excursion.firstReturn {S : P → Prop} :
    ∀ {w : List Label} {x y : P}, E.Excursion S w x y → S y → FirstReturn E.Maps S x y
  | [a], _, _, h, hy => .now (AIET.maps_iff_mapsBy.mpr ⟨a, h⟩) hy
  | a :: b :: w, _, _, ⟨_, h1, h2, h3⟩, hy =>
    .later (AIET.maps_iff_mapsBy.mpr ⟨a, h1⟩) h2 (AIET.Excursion.firstReturn (w := b :: w) h3 hy)

/-- Replacing each step by an excursion. -/
theorem AIET.Excursion.subst {A A₀ : AIET P} {o : P} {S S₀ : P → Prop} {w : Label → List Label}
    (hc : ∀ a ∈ A.top, ∀ x y, A.MapsBy a x y → A₀.Excursion S₀ (w a) (x + o) (y + o)) (hS : ∀ x, S x → S₀ (x + o)) :
    ∀ {u : List Label} {x y : P}, A.Excursion S u x y → A₀.Excursion (fun z => S (z - o)) (u.flatMap w) (x + o) (y + o)
  | [a], _, _, h => by
    simp only [List.flatMap_cons, List.flatMap_nil, List.append_nil]
    exact (hc a h.1 _ _ h).mono (fun z hz => by simpa using hS _ hz)
  | a :: b :: u, _, _, ⟨z, h1, h2, h3⟩ => by
    rw [List.flatMap_cons]
    exact AIET.Excursion.append (z := z + o) (by simpa using h2) (AIET.Excursion.subst hc hS (u := b :: u) h3)
      ((hc a h1.1 _ _ h1).mono (fun z hz => by simpa using hS _ hz))

/-! ### Sums -/

theorem sumLen_zero (l : List Label) : sumLen (fun _ => (0 : P)) l = 0 := by
  induction l with
  | nil => rfl
  | cons a l ih => rw [sumLen_cons, ih, add_zero]

theorem sumLen_add (f g : Label → P) (l : List Label) : sumLen (fun a => f a + g a) l = sumLen f l + sumLen g l := by
  induction l with
  | nil => simp
  | cons a l ih => simp only [sumLen_cons, ih]; ring

theorem sumLen_mul_left (c : P) (f : Label → P) (l : List Label) : sumLen (fun a => c * f a) l = c * sumLen f l := by
  induction l with
  | nil => simp
  | cons a l ih => simp only [sumLen_cons, ih]; ring

theorem sum_map_add' {α : Type} (f g : α → P) (l : List α) : (l.map (fun a => f a + g a)).sum = (l.map f).sum + (l.map g).sum := by
  induction l with
  | nil => simp
  | cons a l ih => simp only [List.map_cons, List.sum_cons, ih]; ring

theorem sum_map_mul' {α : Type} (c : P) (f : α → P) (l : List α) : (l.map (fun a => c * f a)).sum = c * (l.map f).sum := by
  induction l with
  | nil => simp
  | cons a l ih => simp only [List.map_cons, List.sum_cons, ih]; ring

theorem sumLen_exchange {α : Type} (new : List α) (T : α → List Label) (len : α → Label → P) (f : Label → P) (g : Label → Label → P) (L : List Label) :
    sumLen (fun a => f a * (new.map (fun p => sumLen (fun b => g a b * len p b) (T p))).sum) L =
      (new.map (fun p => sumLen (fun b => sumLen (fun a => f a * g a b) L * len p b) (T p))).sum := by
  induction L with
  | nil => simp [sumLen_zero]
  | cons a L ih =>
    rw [sumLen_cons, ih, ← sum_map_mul', ← sum_map_add']
    congr 1
    refine List.map_congr_left (fun p _ => ?_)
    rw [← sumLen_mul_left, ← sumLen_add]
    refine sumLen_congr (fun b _ => ?_)
    rw [sumLen_cons]; ring

theorem sumLen_count (f : Label → P) {L : List Label} (hL : L.Nodup) : ∀ (u : List Label), (∀ a ∈ u, a ∈ L) →
    sumLen (fun a => f a * ((u.count a : ℕ) : P)) L = (u.map f).sum := by
  intro u
  induction u with
  | nil => intro _; simp [sumLen_zero]
  | cons b u ih =>
    intro hu
    have h1 := ih (fun a ha => hu a (List.mem_cons_of_mem _ ha))
    rw [List.map_cons, List.sum_cons, ← h1]
    have h2 : sumLen (fun a => f a * (((b :: u).count a : ℕ) : P)) L =
        sumLen (fun a => (if b = a then f a else 0) + f a * ((u.count a : ℕ) : P)) L := by
      refine sumLen_congr (fun a _ => ?_)
      rw [List.count_cons]
      by_cases h : b = a
      · subst h; simp; ring
      · simp [h]
    rw [h2, sumLen_add]
    congr 1
    have hb := hu b (by simp)
    clear h1 h2 ih hu
    induction L with
    | nil => simp at hb
    | cons c L ih =>
      rw [List.nodup_cons] at hL
      rw [sumLen_cons]
      by_cases h : b = c
      · subst h
        rw [if_pos rfl, sumLen_congr (len' := fun _ => 0), sumLen_zero, add_zero]
        intro a ha
        rw [if_neg]
        rintro rfl
        exact hL.1 ha
      · rw [if_neg h, zero_add]
        exact ih hL.2 (by simpa [h] using hb)

theorem count_flatMap_cast (w : Label → List Label) (x : Label) (u : List Label) :
    (((u.flatMap w).count x : ℕ) : P) = (u.map (fun a => (((w a).count x : ℕ) : P))).sum := by
  induction u with
  | nil => simp
  | cons a u ih => rw [List.flatMap_cons, List.count_append, Nat.cast_add, ih, List.map_cons, List.sum_cons]

/-! ### Towers -/

theorem Towers.init (A : AIET P) (hA : A.Valid) : Towers A [(0, A)] (fun a => [a]) where
  excursion := by
    simp only [List.mem_singleton, forall_eq, add_zero]
    exact fun a _ x y h => h
  heights := by
    intro x hx
    simp only [List.map_cons, List.map_nil, List.sum_cons, List.sum_nil, add_zero]
    have := sumLen_count A.len hA.nodup [x] (by simpa using hx)
    simp only [List.map_cons, List.map_nil, List.sum_cons, List.sum_nil, add_zero] at this
    rw [← this]
    refine sumLen_congr (fun a _ => ?_)
    simp only [List.count_singleton]
    by_cases h : a = x
    · subst h; simp
    · simp [h, Ne.symm h]

theorem Towers.perm {A : AIET P} {pieces pieces' : List (P × AIET P)} {w : Label → List Label} (h : Towers A pieces w) (hp : pieces.Perm pieces') :
    Towers A pieces' w where
  excursion p hp' := h.excursion p (hp.mem_iff.mpr hp')
  heights x hx := by
    rw [h.heights x hx]
    exact (hp.map _).sum_eq

theorem Towers.replace {A₀ A : AIET P} {o : P} {rest new : List (P × AIET P)} {w u : Label → List Label} (hA : A.Valid)
    (h : Towers A₀ ((o, A) :: rest) w) (h' : Towers A new u) (hv : ∀ p ∈ new, p.2.Valid)
    (hin : ∀ p ∈ new, 0 ≤ p.1 ∧ p.1 + p.2.total ≤ A.total) (hmem : ∀ p ∈ new, ∀ a ∈ p.2.top, a ∈ A.top)
    (hdis : ∀ p ∈ rest, ∀ a ∈ p.2.top, a ∉ A.top) :
    Towers A₀ (new.map (fun p => (o + p.1, p.2)) ++ rest) (fun a => if a ∈ A.top then (u a).flatMap w else w a) where
  excursion := by
    intro p hp a ha x y hxy
    rw [List.mem_append] at hp
    rcases hp with hp | hp
    · obtain ⟨q, hq, rfl⟩ := List.mem_map.mp hp
      have ha' : a ∈ A.top := hmem q hq a ha
      rw [if_pos ha']
      have := (h'.excursion q hq a ha x y hxy).subst (S₀ := Inside (o, A)) (h.excursion (o, A) (by simp)) (by
        rintro z ⟨h1, h2⟩
        have := hin q hq
        simp only [Inside]
        constructor <;> linarith)
      simp only at this ⊢
      rw [show x + (o + q.1) = x + q.1 + o by ring, show y + (o + q.1) = y + q.1 + o by ring]
      refine this.mono ?_
      rintro z ⟨h1, h2⟩
      simp only [Inside] at h1 h2 ⊢
      constructor <;> linarith
    · rw [if_neg (hdis p hp a ha)]
      exact h.excursion p (List.mem_cons_of_mem _ hp) a ha x y hxy
  heights := by
    intro x hx
    rw [h.heights x hx, List.map_append, List.sum_append, List.map_cons, List.sum_cons]
    congr 1
    · simp only
      rw [sumLen_congr (len' := fun a => (((w a).count x : ℕ) : P) *
        (new.map (fun p => sumLen (fun b => (((u b).count a : ℕ) : P) * p.2.len b) p.2.top)).sum) (fun a ha => by rw [h'.heights a ha])]
      rw [sumLen_exchange new (fun p => p.2.top) (fun p => p.2.len) (fun a => (((w a).count x : ℕ) : P)) (fun a b => (((u b).count a : ℕ) : P)),
        List.map_map]
      congr 1
      refine List.map_congr_left (fun p hp => ?_)
      refine sumLen_congr (fun b hb => ?_)
      obtain ⟨x', y', hxy⟩ := (hv p hp).exists_mapsBy hb
      rw [if_pos (hmem p hp b hb), count_flatMap_cast,
        sumLen_count (fun a => (((w a).count x : ℕ) : P)) hA.nodup _ (h'.excursion p hp b hb _ _ hxy).path.mem]
    · congr 1
      refine List.map_congr_left (fun p hp => sumLen_congr (fun b hb => ?_))
      rw [if_neg (hdis p hp b hb)]

theorem Towers.trans {A B C : AIET P} {δ δ' : P} {w u : Label → List Label} (hB : B.Valid) (hC : C.Valid) (h : Towers A [(δ, B)] w)
    (h' : Towers B [(δ', C)] u) (hδ' : 0 ≤ δ') (ht : δ' + C.total ≤ B.total) (hmem : ∀ a ∈ C.top, a ∈ B.top) :
    ∃ w', Towers A [(δ + δ', C)] w' :=
  ⟨_, h.replace hB h' (by simpa using hC) (by simpa using ⟨hδ', ht⟩) (by simpa using hmem) (by simp)⟩

theorem Towers.of_inv {A B : AIET P} {δ : P} {w : Label → List Label} (hA : A.Valid) (hB : B.Valid) (h : Towers A.inv [(δ, B.inv)] w) :
    Towers A [(δ, B)] (fun a => (w a).reverse) where
  excursion := by
    simp only [List.mem_singleton, forall_eq]
    intro a ha x y hxy
    have := (h.excursion (δ, B.inv) (by simp) a (hB.perm.mem_iff.mpr ha) y x (hB.mapsBy_inv hxy)).inv hA.inv
    refine AIET.Excursion.mono ?_ this
    rintro z ⟨h1, h2⟩
    refine ⟨h1, ?_⟩
    simp only at h2 ⊢
    rwa [hB.total_inv]
  heights := by
    intro x hx
    have := h.heights x (hA.perm.mem_iff.mpr hx)
    simp only [List.map_cons, List.map_nil, List.sum_cons, List.sum_nil, add_zero, List.count_reverse] at this ⊢
    exact this.trans (sumLen_perm _ hB.perm)

/-- The sum of the lengths when one interval has a longer code. -/
theorem rauzy_heights {l : List Label} (hl : l.Nodup) {a b x : Label} (hab : b ≠ a) (hb : b ∈ l) (len : Label → P) :
    sumLen (fun c => (((if c = b then [b, a] else [c]).count x : ℕ) : P) * len c) l =
      (if x ∈ l then len x else 0) + (if x = a then len b else 0) := by
  have h1 : ∀ (f : Label → P) (y : Label), sumLen (fun c => if c = y then f c else 0) l = if y ∈ l then f y else 0 := by
    intro f y
    clear hb
    induction l with
    | nil => simp
    | cons c l ih =>
      rw [List.nodup_cons] at hl
      rw [sumLen_cons, ih hl.2]
      by_cases h : c = y
      · subst h; simp [hl.1]
      · simp [h, Ne.symm h]
  have h2 := h1 len x
  have h3 := h1 (fun c => if x = a then len c else 0) b
  rw [if_pos hb] at h3
  rw [← h2, ← h3, ← sumLen_add]
  refine sumLen_congr (fun c _ => ?_)
  by_cases hcb : c = b
  · subst hcb
    simp only [if_true, List.count_cons, List.count_nil]
    by_cases hx : x = a
    · subst hx; simp [hab]
    · by_cases hc : c = x
      · subst hc; simp [hx, Ne.symm hx]
      · simp [hx, hc, Ne.symm hx]
  · simp only [hcb, if_false, List.count_singleton, add_zero]
    by_cases hc : c = x
    · subst hc; simp
    · simp [hc]

theorem RauzyTop.towers_eq {a b : Label} {t l₁ l₂ : List Label} {len : Label → P} (hlt : len b < len a)
    (hE : (⟨a :: t, b :: (l₁ ++ a :: l₂), len⟩ : AIET P).Valid) {δ : P}
    (hδ : (⟨a :: t, l₁ ++ b :: a :: l₂, shorten len a (len b)⟩ : AIET P).total + δ = (⟨a :: t, b :: (l₁ ++ a :: l₂), len⟩ : AIET P).total) :
    Towers ⟨a :: t, b :: (l₁ ++ a :: l₂), len⟩ [(δ, ⟨a :: t, l₁ ++ b :: a :: l₂, shorten len a (len b)⟩)] (fun c => if c = b then [b, a] else [c]) := by
  have hs := hE.split
  have hb : 0 < len b := hE.pos b (List.mem_cons_of_mem _ hs.b_t)
  have hpl₁ : ∀ c ∈ l₁, 0 < len c := fun c hc => hE.pos_bottom c (by simp [hc])
  have hs₁ : 0 ≤ sumLen len l₁ := sumLen_nonneg hpl₁
  have c1 := shorten_congr len (len b) hs.a_l₁
  have c2 := shorten_congr len (len b) hs.a_l₂
  have ct := shorten_congr len (len b) hs.a_t
  have hδ' : δ = len b := by
    simp only [AIET.total, sumLen_cons] at hδ
    rw [shorten_eq, sumLen_congr ct] at hδ; linarith
  subst hδ'
  refine ⟨?_, ?_⟩
  · simp only [List.mem_singleton, forall_eq]
    intro c hc
    rintro x y ⟨-, h1, h2, h3⟩
    simp only at hc h1 h2 h3
    by_cases hca : c = a
    · subst hca
      rw [if_neg (Ne.symm hs.b_a)]
      rw [hs.off'_a, sumLen_congr c1, shorten_ne len _ hs.b_a] at h3
      simp only [off_cons_self, shorten_eq] at h1 h2 h3
      refine ⟨by simp, ?_, ?_, ?_⟩
      · simp only [off_cons_self]; linarith
      · simp only [off_cons_self]; linarith
      · simp only [off_cons_self]; rw [hs.off_a]; linarith
    · have hct : c ∈ t := by simpa [hca] using hc
      rw [off_cons_ne _ (Ne.symm hca), shorten_eq, off_congr ct] at h1 h2 h3
      rw [shorten_ne _ _ hca] at h2
      by_cases hcb : c = b
      · subst hcb
        rw [if_pos rfl]
        rw [hs.off'_b, sumLen_congr c1] at h3
        refine ⟨x + len c - (len a + off len t c), ⟨hc, ?_, ?_, ?_⟩, fun h => ?_, by simp, ?_, ?_, ?_⟩
        · simp only; rw [hs.off_t len hct]; linarith
        · simp only; rw [hs.off_t len hct]; linarith
        · simp only; rw [hs.off_t len hct, off_cons_self]; linarith
        · have := h.1; simp only at this; linarith
        · simp only [off_cons_self]; linarith
        · simp only [off_cons_self]; linarith
        · simp only [off_cons_self]; rw [hs.off_a]; linarith
      · rw [if_neg hcb]
        rcases hs.cases hct hcb with hc₁ | ⟨hc₁, hc₂⟩
        · rw [hs.off'_l₁ _ hc₁, off_congr c1] at h3
          refine ⟨hc, ?_, ?_, ?_⟩
          · simp only; rw [hs.off_t len hct]; linarith
          · simp only; rw [hs.off_t len hct]; linarith
          · simp only; rw [hs.off_t len hct, hs.off_l₁ len hc₁]; linarith
        · rw [hs.off'_l₂ _ hc₁ hc₂, off_congr c2, sumLen_congr c1, shorten_ne len _ hs.b_a, shorten_eq] at h3
          refine ⟨hc, ?_, ?_, ?_⟩
          · simp only; rw [hs.off_t len hct]; linarith
          · simp only; rw [hs.off_t len hct]; linarith
          · simp only; rw [hs.off_t len hct, hs.off_l₂ len hc₁ hc₂]; linarith
  · intro x hx
    simp only [List.map_cons, List.map_nil, List.sum_cons, List.sum_nil, add_zero]
    rw [rauzy_heights (l := a :: t) hE.nodup hs.b_a (List.mem_cons_of_mem _ hs.b_t), if_pos hx]
    by_cases hxa : x = a
    · subst hxa
      rw [if_pos rfl, shorten_eq, shorten_ne _ _ hs.b_a]; ring
    · rw [if_neg hxa, shorten_ne _ _ hxa, add_zero]

theorem RauzyTop.towers {E E' : AIET P} (hE : E.Valid) (h : RauzyTop E E') {δ : P} (hδ : E'.total + δ = E.total) :
    ∃ w, Towers E [(δ, E')] w := by
  obtain ⟨a, b, t, l₁, l₂, len, hlt⟩ := h
  exact ⟨_, RauzyTop.towers_eq hlt hE hδ⟩

theorem MergeTop.towers {E E' : AIET P} (hE : E.Valid) (h : MergeTop E E') {δ : P} (hδ : E'.total + δ = E.total) :
    ∃ w, Towers E [(δ, E')] w := by
  obtain ⟨a, b, t, l₁, l₂, len, heq⟩ := h
  have hs := hE.split
  have hδ' : δ = len b := by
    simp only [AIET.total, sumLen_cons] at hδ
    linarith
  subst hδ'
  refine ⟨fun c => if c = b then [b, a] else [c], ?_, ?_⟩
  · simp only [List.mem_singleton, forall_eq]
    intro c hct
    rintro x y ⟨-, h1, h2, h3⟩
    simp only at hct h1 h2 h3
    have hc : c ∈ a :: t := List.mem_cons_of_mem _ hct
    by_cases hcb : c = b
    · subst hcb
      rw [if_pos rfl]
      rw [hs.off''_b] at h3
      refine ⟨x - off len t c, ⟨hc, ?_, ?_, ?_⟩, fun h => ?_, by simp, ?_, ?_, ?_⟩
      · simp only; rw [hs.off_t len hct]; linarith
      · simp only; rw [hs.off_t len hct]; linarith
      · simp only; rw [hs.off_t len hct, off_cons_self]; linarith
      · have := h.1; simp only at this; linarith
      · simp only [off_cons_self]; linarith
      · simp only [off_cons_self]; linarith
      · simp only [off_cons_self]; rw [hs.off_a]; linarith
    · rw [if_neg hcb]
      rcases hs.cases hct hcb with hc₁ | ⟨hc₁, hc₂⟩
      · rw [hs.off''_l₁ _ hc₁] at h3
        refine ⟨hc, ?_, ?_, ?_⟩
        · simp only; rw [hs.off_t len hct]; linarith
        · simp only; rw [hs.off_t len hct]; linarith
        · simp only; rw [hs.off_t len hct, hs.off_l₁ len hc₁]; linarith
      · rw [hs.off''_l₂ _ hc₁ hc₂] at h3
        refine ⟨hc, ?_, ?_, ?_⟩
        · simp only; rw [hs.off_t len hct]; linarith
        · simp only; rw [hs.off_t len hct]; linarith
        · simp only; rw [hs.off_t len hct, hs.off_l₂ len hc₁ hc₂]; linarith
  · intro x hx
    simp only [List.map_cons, List.map_nil, List.sum_cons, List.sum_nil, add_zero]
    have hnd : (a :: t).Nodup := hE.nodup
    rw [List.nodup_cons] at hnd
    rw [rauzy_heights (l := t) hnd.2 hs.b_a hs.b_t]
    by_cases hxa : x = a
    · subst hxa
      rw [if_pos rfl, if_neg hnd.1, zero_add]; exact heq.symm
    · rw [if_neg hxa, if_pos (by simpa [hxa] using hx), add_zero]

theorem RauzyStep.towers {E E' : AIET P} (hE : E.Valid) (h : RauzyStep E E') {δ : P} (hδ : E'.total + δ = E.total) :
    ∃ w, Towers E [(δ, E')] w := by
  have hE' : E'.Valid := by obtain ⟨_, _, h⟩ := h.fwd hE; exact h.valid'
  rcases h with h | h
  · exact h.towers hE hδ
  · obtain ⟨w, hw⟩ := h.towers hE.inv (δ := δ) (by rw [hE.total_inv, hE'.total_inv, hδ])
    exact ⟨_, .of_inv hE hE' hw⟩

theorem Steps.towers {E E' : AIET P} (hE : E.Valid) (h : Steps E E') : ∀ {δ : P}, E'.total + δ = E.total → ∃ w, Towers E [(δ, E')] w := by
  induction h with
  | refl =>
    intro δ hδ
    obtain rfl : δ = 0 := by linarith
    exact ⟨_, .init E hE⟩
  | @tail F G hr h ih =>
    intro δ hδ
    have hF := Steps.valid hE hr
    have hG := Steps.valid hF (.single h)
    obtain ⟨w, h1⟩ := ih (δ := E.total - F.total) (by ring)
    obtain ⟨u, h2⟩ := h.towers hF (δ := F.total - G.total) (by ring)
    obtain ⟨d, hd, hg⟩ := h.fwd hF
    have := hg.total_eq
    obtain ⟨w', h3⟩ := h1.trans hF hG h2 (by linarith [hg.nonneg]) (by linarith) (fun a ha => (Steps.top_perm (.single h)).mem_iff.mp ha)
    rw [show E.total - F.total + (F.total - G.total) = δ by linarith] at h3
    exact ⟨w', h3⟩

theorem IsCut.towers {A l r : AIET P} {k : ℕ} (hA : A.Valid) (h : IsCut A l r k) : ∃ w, Towers A [(0, l), (l.total, r)] w := by
  obtain ⟨h1, _, h3, h4, _⟩ := h.facts hA
  refine ⟨fun a => [a], ?_, ?_⟩
  · simp only [List.mem_cons, List.not_mem_nil, or_false, forall_eq_or_imp, forall_eq]
    constructor
    · rintro a ha x y ⟨_, g1, g2, g3⟩
      obtain ⟨e1, e2⟩ := (h.offs hA).1 a ha
      refine ⟨by rw [h1]; exact List.mem_append_left _ ha, ?_, ?_, ?_⟩
      · rw [e1]; linarith
      · rw [e1, ← h3]; linarith
      · rw [e1, e2]; linarith
    · rintro a ha x y ⟨_, g1, g2, g3⟩
      obtain ⟨e1, e2⟩ := (h.offs hA).2 a ha
      refine ⟨by rw [h1]; exact List.mem_append_right _ ha, ?_, ?_, ?_⟩
      · rw [e1]; linarith
      · rw [e1, ← h4]; linarith
      · rw [e1, e2]; linarith
  · intro x hx
    have := (Towers.init A hA).heights x hx
    simp only [List.map_cons, List.map_nil, List.sum_cons, List.sum_nil, add_zero] at this ⊢
    rw [this, h1, sumLen_append, h3, h4]

theorem Towers.congr {A : AIET P} {pieces : List (P × AIET P)} {w : Label → List Label} (hv : ∀ p ∈ pieces, p.2.Valid) (h : Towers A pieces w)
    {len : Label → P} (hl : ∀ p ∈ pieces, ∀ a ∈ p.2.top, p.2.len a = len a) :
    Towers A (pieces.map (fun p => (p.1, ⟨p.2.top, p.2.bottom, len⟩))) w where
  excursion := by
    simp only [List.mem_map, forall_exists_index, and_imp, forall_apply_eq_imp_iff₂]
    rintro p hp a ha x y ⟨_, h1, h2, h3⟩
    have hag : p.2.Agree ⟨p.2.top, p.2.bottom, len⟩ := ⟨rfl, rfl, hl p hp⟩
    refine AIET.Excursion.mono ?_ (h.excursion p hp a ha x y ⟨ha, ?_, ?_, ?_⟩)
    · rintro z ⟨g1, g2⟩
      refine ⟨g1, ?_⟩
      simpa only [AIET.total, sumLen_congr (hl p hp)] using g2
    · rwa [hag.off_top]
    · rw [hag.off_top, hag.2.2 a ha]; exact h2
    · rw [hag.off_top, hag.off_bottom (hv p hp)]; exact h3
  heights := by
    intro x hx
    rw [h.heights x hx, List.map_map]
    congr 1
    exact List.map_congr_left (fun p hp => sumLen_congr (fun a ha => by simp only [hl p hp a ha]))

/-- The points in an interval of `B` all follow the same intervals of `A` until they return to `B`, which is at offset `δ`. -/
def Coded (A : AIET P) (δ : P) (B : AIET P) : Prop :=
  ∀ a ∈ B.top, ∃ w, w ≠ [] ∧ ∀ x y, B.MapsBy a x y → A.Path w (x + δ) (y + δ)

theorem Towers.coded {A : AIET P} {pieces : List (P × AIET P)} {w : Label → List Label} (hv : ∀ p ∈ pieces, p.2.Valid) (h : Towers A pieces w)
    {p : P × AIET P} (hp : p ∈ pieces) : Coded A p.1 p.2 := by
  intro a ha
  obtain ⟨x, y, hxy⟩ := (hv p hp).exists_mapsBy ha
  exact ⟨w a, (h.excursion p hp a ha x y hxy).ne_nil, fun x y hxy => (h.excursion p hp a ha x y hxy).path⟩

/-- Repeating a closed path. -/
theorem AIET.Path.repeat {w : List Label} {x : P} (hp : E.Path w x x) (n : ℕ) : E.Path (List.replicate n w).flatten x x := by
  induction n with
  | zero => rfl
  | succ n ih =>
    rw [List.replicate_succ, List.flatten_cons, AIET.path_append]
    exact ⟨x, hp, ih⟩

/-- When a set of points goes back to themselves along the same intervals then they have the same periods. -/
theorem iter_iff_of_path (hE : E.Valid) {w : List Label} (hw : w ≠ []) {x y : P} (hx : E.Path w x x) (hy : E.Path w y y) (n : ℕ) :
    Iter E.Maps n x x → Iter E.Maps n y y := by
  intro hn
  have h1 := hx.repeat n
  have h2 := hy.repeat n
  have hlen : n ≤ (List.replicate n w).flatten.length := by
    simp only [List.length_flatten, List.map_replicate, List.sum_replicate, smul_eq_mul]
    have : 0 < w.length := List.length_pos_iff.mpr hw
    exact Nat.le_mul_of_pos_right n this
  rw [← List.take_append_drop n (List.replicate n w).flatten, AIET.path_append] at h1 h2
  obtain ⟨x', h1, -⟩ := h1
  obtain ⟨y', h2, -⟩ := h2
  have h3 := h1.iter
  have h4 := h2.iter
  rw [List.length_take_of_le hlen] at h3 h4
  have e := h1.transl h2
  have e' := iter_unique hE.maps_fun h3 hn
  obtain rfl : y' = y := by linarith
  exact h4

end Verif
