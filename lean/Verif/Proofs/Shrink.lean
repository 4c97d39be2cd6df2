import Verif.Proofs.Cylinders
import Mathlib.Algebra.Order.Archimedean.Basic
import Mathlib.Data.List.TakeWhile

/-!
# Rauzy induction that goes on forever shrinks the interval to a point

If there is no end to the steps of Rauzy induction and infinitely many of the interval exchange transformations are irreducible, then the lengths get
arbitrarily small.
-/

namespace Verif

set_option linter.unusedSectionVars false

variable {T : Type} [CommRing T] [LinearOrder T] [IsStrictOrderedRing T]

/-- The interval `w` on one side is longer than the interval `l` on the other side, it is shortened. -/
def BeatsTop (A B : AIET T) (w l : Label) : Prop :=
  A.top.head? = some w ∧ A.bottom.head? = some l ∧ B.top = A.top ∧ ∃ l₁ l₂, A.bottom = l :: (l₁ ++ w :: l₂) ∧ B.bottom = l₁ ++ l :: w :: l₂

structure Beats (A B : AIET T) (w l : Label) : Prop where
  ne : w ≠ l
  mem_w : w ∈ A.top
  mem_l : l ∈ A.top
  len : B.len = shorten A.len w (A.len l)
  total : B.total + A.len l = A.total
  side : BeatsTop A B w l ∨ BeatsTop A.inv B.inv w l

theorem RauzyStep.beats {A B : AIET T} (hA : A.Valid) (h : RauzyStep A B) : ∃ w l, Beats A B w l := by
  have key : ∀ {A B : AIET T}, A.Valid → RauzyTop A B → ∃ w l, Beats A B w l := by
    intro A B hA h
    cases h with
    | mk a b t l₁ l₂ len hlt =>
      have hs := hA.split
      refine ⟨a, b, hs.b_a.symm, by simp, by simp [hs.b_t], rfl, ?_, .inl ⟨rfl, rfl, rfl, l₁, l₂, rfl, rfl⟩⟩
      unfold AIET.total
      simp only [sumLen]
      rw [shorten_eq, sumLen_congr (shorten_congr len (len b) hs.a_t)]
      ring
  rcases h with h | h
  · exact key hA h
  · obtain ⟨w, l, h'⟩ := key hA.inv h
    refine ⟨w, l, h'.ne, hA.perm.mem_iff.mp h'.mem_w, hA.perm.mem_iff.mp h'.mem_l, h'.len, ?_, ?_⟩
    · have h1 := h'.total
      have h2 := hA.total_inv
      have hB : B.inv.Valid := by
        obtain ⟨δ, -, hf⟩ := RauzyStep.fwd hA.inv (.inl h)
        exact hf.valid'
      have h3 := hB.total_inv
      rw [AIET.inv_inv] at h3
      rw [h3, ← h2]; exact h1
    · rcases h'.side with h | h
      · exact .inr h
      · rw [AIET.inv_inv] at h; exact .inl h

/-- A path of infinitely many steps of Rauzy induction. -/
structure RauzyPath (E : ℕ → AIET T) : Prop where
  valid : (E 0).Valid
  step : ∀ m, RauzyStep (E m) (E (m + 1))

variable {E : ℕ → AIET T}

theorem RauzyPath.steps (h : RauzyPath E) {m n : ℕ} (hmn : m ≤ n) : Steps (E m) (E n) := by
  induction n, hmn using Nat.le_induction with
  | base => exact .refl
  | succ n _ ih => exact ih.tail (h.step n)

theorem RauzyPath.valid' (h : RauzyPath E) (m : ℕ) : (E m).Valid := Steps.valid h.valid (h.steps (Nat.zero_le m))

theorem RauzyPath.inv (h : RauzyPath E) : RauzyPath (fun m => (E m).inv) := ⟨h.valid.inv, fun m => (h.step m).inv⟩

theorem RauzyPath.shift (h : RauzyPath E) (k : ℕ) : RauzyPath (fun m => E (m + k)) :=
  ⟨h.valid' _, fun m => by have := h.step (m + k); rwa [show m + 1 + k = m + k + 1 by omega]⟩

theorem RauzyPath.mem (h : RauzyPath E) {m n : ℕ} {a : Label} : a ∈ (E m).top ↔ a ∈ (E n).top := by
  have key : ∀ {m n : ℕ}, m ≤ n → (a ∈ (E m).top ↔ a ∈ (E n).top) := fun hmn => (Steps.top_perm (h.steps hmn)).mem_iff.symm
  rcases le_total m n with hmn | hmn
  · exact key hmn
  · exact (key hmn).symm

theorem RauzyPath.mem_bottom (h : RauzyPath E) {m n : ℕ} {a : Label} : a ∈ (E m).bottom ↔ a ∈ (E n).top :=
  (h.valid' m).perm.mem_iff.trans h.mem

/-- The intervals that win and lose. -/
structure Game (E : ℕ → AIET T) (w l : ℕ → Label) : Prop where
  path : RauzyPath E
  beats : ∀ m, Beats (E m) (E (m + 1)) (w m) (l m)

theorem RauzyPath.game (h : RauzyPath E) : ∃ w l, Game E w l := by
  choose w l hwl using fun m => (h.step m).beats (h.valid' m)
  exact ⟨w, l, h, hwl⟩

variable {w l : ℕ → Label}

theorem Game.inv (h : Game E w l) : Game (fun m => (E m).inv) w l := by
  refine ⟨h.path.inv, fun m => ?_⟩
  have hb := h.beats m
  have hv := h.path.valid' m
  have hv' := h.path.valid' (m + 1)
  refine ⟨hb.ne, hv.perm.mem_iff.mpr hb.mem_w, hv.perm.mem_iff.mpr hb.mem_l, hb.len, ?_, ?_⟩
  · rw [hv.total_inv, hv'.total_inv]; exact hb.total
  · simp only [AIET.inv_inv]
    exact hb.side.symm

theorem Game.len_le (h : Game E w l) {m n : ℕ} (hmn : m ≤ n) (a : Label) : (E n).len a ≤ (E m).len a :=
  Steps.len_le (h.path.valid' m) (h.path.steps hmn) a

theorem Game.total_le (h : Game E w l) {m n : ℕ} (hmn : m ≤ n) : (E n).total ≤ (E m).total := by
  induction n, hmn using Nat.le_induction with
  | base => exact le_refl _
  | succ n _ ih =>
    have h1 := (h.beats n).total
    have h2 := (h.path.valid' n).pos _ (h.beats n).mem_l
    linarith

/-- Intervals that do not win are not shortened. -/
theorem Game.len_eq (h : Game E w l) {m n : ℕ} (hmn : m ≤ n) {a : Label} (ha : ∀ k, m ≤ k → k < n → w k ≠ a) :
    (E n).len a = (E m).len a := by
  induction n, hmn using Nat.le_induction with
  | base => rfl
  | succ n hn ih =>
    rw [(h.beats n).len, ← ih (fun k hk hk' => ha k hk (by omega))]
    exact shorten_congr _ _ (l := [a]) (by simpa using ha n hn (Nat.lt_succ_self n)) a (by simp)

/-- Often: for infinitely many steps. -/
def Often (p : ℕ → Prop) : Prop := ∀ m, ∃ n, m ≤ n ∧ p n

theorem Often.not {p : ℕ → Prop} (h : ¬ Often p) : ∃ m, ∀ n, m ≤ n → ¬ p n := by
  unfold Often at h
  push Not at h
  exact h

variable [Archimedean T]

/-- Intervals that lose infinitely often become short. -/
theorem Game.small (h : Game E w l) {a : Label} (ha : Often (fun m => l m = a)) {η : T} (hη : 0 < η) : ∃ m, (E m).len a < η := by
  by_contra hcon
  push Not at hcon
  have key : ∀ k : ℕ, ∃ m, (E m).total + k • η ≤ (E 0).total := by
    intro k
    induction k with
    | zero => exact ⟨0, by simp⟩
    | succ k ih =>
      obtain ⟨m, hm⟩ := ih
      obtain ⟨n, hn, hl⟩ := ha m
      refine ⟨n + 1, ?_⟩
      have h1 := h.total_le hn
      have h2 := (h.beats n).total
      have h3 := hcon n
      rw [hl] at h2
      rw [succ_nsmul]
      linarith
  obtain ⟨k, hk⟩ := Archimedean.arch (E 0).total hη
  obtain ⟨m, hm⟩ := key k
  have := (h.path.valid' m).total_pos
  linarith

/-- Intervals that lose infinitely often win infinitely often. -/
theorem Game.wins (h : Game E w l) {a : Label} (ha : Often (fun m => l m = a)) : Often (fun m => w m = a) := by
  by_contra hcon
  obtain ⟨m₀, hm₀⟩ := Often.not hcon
  have hmem : a ∈ (E m₀).top := by
    obtain ⟨n, -, hn⟩ := ha 0
    have := (h.beats n).mem_l
    rw [hn] at this
    exact h.path.mem.mp this
  obtain ⟨m, hm⟩ := h.small ha ((h.path.valid' m₀).pos a hmem)
  rcases le_total m₀ m with hle | hle
  · rw [h.len_eq hle (fun k hk _ => hm₀ k hk)] at hm
    exact lt_irrefl _ hm
  · exact absurd (h.len_le hle a) (not_le.mpr hm)

theorem exists_often {p : ℕ → Label → Prop} : ∀ (s : List Label), Often (fun m => ∃ a ∈ s, p m a) → ∃ a ∈ s, Often (fun m => p m a)
  | [], h => by obtain ⟨n, -, a, ha, -⟩ := h 0; cases ha
  | a :: s, h => by
    by_cases ha : Often (fun m => p m a)
    · exact ⟨a, by simp, ha⟩
    · obtain ⟨m₀, hm₀⟩ := Often.not ha
      obtain ⟨b, hb, hb'⟩ := exists_often s (p := p) (fun m => by
        obtain ⟨n, hn, b, hb, hp⟩ := h (max m m₀)
        rcases List.mem_cons.mp hb with rfl | hb
        · exact absurd hp (hm₀ n (le_trans (le_max_right _ _) hn))
        · exact ⟨n, le_trans (le_max_left _ _) hn, b, hb, hp⟩)
      exact ⟨b, List.mem_cons_of_mem _ hb, hb'⟩

/-- No interval wins forever. -/
theorem Game.not_always (h : Game E w l) {a : Label} {m₀ : ℕ} (ha : ∀ m, m₀ ≤ m → w m = a) : False := by
  obtain ⟨b, -, hb⟩ := exists_often (p := fun m b => l m = b) (E 0).top
    (fun m => ⟨m, le_refl _, l m, h.path.mem.mp (h.beats m).mem_l, rfl⟩)
  obtain ⟨n, hn, hw⟩ := h.wins hb m₀
  obtain ⟨k, hk, hl⟩ := hb m₀
  have h1 := (h.beats k).ne
  rw [ha k hk, hl] at h1
  rw [ha n hn] at hw
  exact h1 hw

/-- Intervals that do not lose anymore are never in front. -/
theorem Game.not_front (h : Game E w l) {a : Label} {m₀ : ℕ} (ha : ∀ m, m₀ ≤ m → l m ≠ a) {m : ℕ} (hm : m₀ ≤ m) :
    (E m).top.head? ≠ some a := by
  intro hf
  have key : ∀ n, m ≤ n → (E n).top.head? = some a := by
    intro n hn
    induction n, hn using Nat.le_induction with
    | base => exact hf
    | succ n hn ih =>
      rcases (h.beats n).side with ⟨h1, h2, h3, -⟩ | ⟨h1, h2, h3, -⟩
      · rw [h3]; exact ih
      · exfalso
        have h2 : (E n).top.head? = some (l n) := h2
        rw [ih] at h2
        exact ha n (le_trans hm hn) (Option.some.inj h2).symm
  refine h.not_always (a := a) (m₀ := m) (fun n hn => ?_)
  rcases (h.beats n).side with ⟨h1, -⟩ | ⟨-, h2, -⟩
  · rw [key n hn] at h1; exact (Option.some.inj h1).symm
  · exfalso
    have h2 : (E n).top.head? = some (l n) := h2
    rw [key n hn] at h2
    exact ha n (le_trans hm hn) (Option.some.inj h2).symm

theorem takeWhile_append_all {α : Type} (p : α → Bool) {s t : List α} (h : ∀ a ∈ s, p a = true) : (s ++ t).takeWhile p = s ++ t.takeWhile p := by
  induction s with
  | nil => rfl
  | cons a s ih =>
    simp only [List.cons_append, List.takeWhile_cons, h a (by simp), if_true]
    rw [ih (fun b hb => h b (List.mem_cons_of_mem _ hb))]

theorem takeWhile_append_not {α : Type} (p : α → Bool) {s t : List α} (h : ∃ a ∈ s, p a = false) : (s ++ t).takeWhile p = s.takeWhile p := by
  induction s with
  | nil => obtain ⟨a, ha, -⟩ := h; cases ha
  | cons a s ih =>
    simp only [List.cons_append, List.takeWhile_cons]
    cases hp : p a with
    | false => simp
    | true =>
      simp only [if_true]
      rw [ih]
      obtain ⟨b, hb, hb'⟩ := h
      rcases List.mem_cons.mp hb with rfl | hb
      · rw [hp] at hb'; cases hb'
      · exact ⟨b, hb, hb'⟩

/-- The block of intervals in front, all of them in the given set, either keeps its intervals or loses one of them. -/
theorem BeatsTop.block {A B : AIET T} {w l : Label} (h : BeatsTop A B w l) (hn : A.bottom.Nodup) (p : Label → Bool) (hw : p w = true) (hl : p l = true) :
    (((B.bottom.takeWhile p).Perm (A.bottom.takeWhile p)) ∧ w ∈ A.bottom.takeWhile p) ∨
      (B.bottom.takeWhile p).length < (A.bottom.takeWhile p).length := by
  obtain ⟨-, -, -, l₁, l₂, hA, hB⟩ := h
  rw [hA, hB]
  by_cases hall : ∀ a ∈ l₁, p a = true
  · left
    have e : (l :: (l₁ ++ w :: l₂)) = (l :: l₁) ++ w :: l₂ := rfl
    rw [takeWhile_append_all p hall, e, takeWhile_append_all p (s := l :: l₁) (by simpa using ⟨hl, hall⟩)]
    simp only [List.takeWhile_cons, hw, hl, if_true]
    exact ⟨List.perm_middle, by simp⟩
  · right
    push Not at hall
    obtain ⟨a, ha, hp⟩ := hall
    have hex : ∃ a ∈ l₁, p a = false := ⟨a, ha, by simpa using hp⟩
    rw [takeWhile_append_not p hex, List.takeWhile_cons, if_pos hl, takeWhile_append_not p hex]
    simp

/-- **All intervals lose infinitely often.** -/
theorem Game.often (h : Game E w l) (hirr : Often (fun m => (E m).Irreducible)) : ∀ a ∈ (E 0).top, Often (fun m => l m = a) := by
  classical
  by_contra hcon
  push Not at hcon
  obtain ⟨z, hz, hz'⟩ := hcon
  -- the intervals that lose infinitely often
  set p : Label → Bool := fun a => decide (Often (fun m => l m = a)) with hp
  -- the others do not lose from some step on
  have hbound : ∃ m₀, ∀ m, m₀ ≤ m → p (l m) = true := by
    by_contra hno
    push Not at hno
    obtain ⟨a, -, ha⟩ := exists_often (p := fun m a => l m = a ∧ p a = false) (E 0).top (fun m => by
      obtain ⟨n, hn, h1⟩ := hno m
      exact ⟨n, hn, l n, h.path.mem.mp (h.beats n).mem_l, rfl, by simpa using h1⟩)
    obtain ⟨n, -, -, h1⟩ := ha 0
    rw [hp] at h1
    simp only [decide_eq_false_iff_not] at h1
    exact h1 (fun m => by obtain ⟨n, hn, h2, -⟩ := ha m; exact ⟨n, hn, h2⟩)
  obtain ⟨m₀, hm₀⟩ := hbound
  have hfront : ∀ m, m₀ ≤ m → ∀ a, ((E m).top.head? = some a ∨ (E m).bottom.head? = some a) → p a = true := by
    intro m hm a ha
    by_contra hpa
    have hlose : ∀ k, m₀ ≤ k → l k ≠ a := by
      rintro k hk rfl
      exact hpa (hm₀ k hk)
    rcases ha with ha | ha
    · exact h.not_front hlose hm ha
    · exact h.inv.not_front hlose hm ha
  have hwp : ∀ m, m₀ ≤ m → p (w m) = true := by
    intro m hm
    rcases (h.beats m).side with ⟨h1, -⟩ | ⟨h1, -⟩
    · exact hfront m hm _ (.inl h1)
    · exact hfront m hm _ (.inr h1)
  -- the blocks of such intervals in front
  set tb : ℕ → List Label := fun m => (E m).top.takeWhile p with htb
  set bb : ℕ → List Label := fun m => (E m).bottom.takeWhile p with hbb
  have hstep : ∀ m, m₀ ≤ m → ((tb (m + 1)).Perm (tb m) ∧ (bb (m + 1)).Perm (bb m) ∧ w m ∈ tb m ∧ w m ∈ bb m) ∨
      (tb (m + 1)).length + (bb (m + 1)).length < (tb m).length + (bb m).length := by
    intro m hm
    have hv := h.path.valid' m
    have hhead : ∀ {s : List Label} {a : Label}, s.head? = some a → p a = true → a ∈ s.takeWhile p := by
      intro s a hs ha
      cases s with
      | nil => cases hs
      | cons b s =>
        simp only [List.head?_cons, Option.some.injEq] at hs
        subst hs
        simp [ha]
    rcases (h.beats m).side with hs | hs
    · have e : tb (m + 1) = tb m := by simp only [htb]; rw [hs.2.2.1]
      rcases hs.block hv.nodup_bottom p (hwp m hm) (hm₀ m hm) with ⟨h1, h2⟩ | h1
      · exact .inl ⟨by rw [e], h1, hhead hs.1 (hwp m hm), h2⟩
      · right; rw [e]; exact Nat.add_lt_add_left h1 _
    · have e : bb (m + 1) = bb m := by simp only [hbb]; have := hs.2.2.1; simp only [AIET.inv] at this; rw [this]
      rcases hs.block hv.inv.nodup_bottom p (hwp m hm) (hm₀ m hm) with ⟨h1, h2⟩ | h1
      · exact .inl ⟨h1, by rw [e], h2, hhead hs.1 (hwp m hm)⟩
      · right; rw [e]; exact Nat.add_lt_add_right h1 _
  -- from some step on the blocks are the same
  have hstable : ∃ m₁, m₀ ≤ m₁ ∧ ∀ m, m₁ ≤ m → (tb (m + 1)).Perm (tb m) ∧ (bb (m + 1)).Perm (bb m) ∧ w m ∈ tb m ∧ w m ∈ bb m := by
    by_contra hno
    push Not at hno
    have hmono : ∀ m n, m₀ ≤ m → m ≤ n → (tb n).length + (bb n).length ≤ (tb m).length + (bb m).length := by
      intro m n hm hmn
      induction n, hmn using Nat.le_induction with
      | base => exact le_refl _
      | succ n hn ih =>
        rcases hstep n (le_trans hm hn) with ⟨h1, h2, -⟩ | h1
        · rw [h1.length_eq, h2.length_eq]; exact ih
        · omega
    have hdesc : ∀ k m, m₀ ≤ m → (tb m).length + (bb m).length ≤ k → False := by
      intro k
      induction k with
      | zero =>
        intro m hm hk
        obtain ⟨n, hn, h1⟩ := hno m hm
        rcases hstep n (le_trans hm hn) with ⟨a1, a2, a3, a4⟩ | h2
        · exact h1 a1 a2 a3 a4
        · have := hmono m n hm hn
          omega
      | succ k ih =>
        intro m hm hk
        obtain ⟨n, hn, h1⟩ := hno m hm
        rcases hstep n (le_trans hm hn) with ⟨a1, a2, a3, a4⟩ | h2
        · exact h1 a1 a2 a3 a4
        · have := hmono m n hm hn
          exact ih (n + 1) (by omega) (by omega)
    exact hdesc _ m₀ (le_refl _) (le_refl _)
  obtain ⟨m₁, hm₁, hst⟩ := hstable
  have hperm : ∀ m n, m₁ ≤ m → m ≤ n → (tb n).Perm (tb m) ∧ (bb n).Perm (bb m) := by
    intro m n hm hmn
    induction n, hmn using Nat.le_induction with
    | base => exact ⟨.refl _, .refl _⟩
    | succ n hn ih =>
      obtain ⟨h1, h2, -⟩ := hst n (le_trans hm hn)
      exact ⟨h1.trans ih.1, h2.trans ih.2⟩
  obtain ⟨m, hm, hI⟩ := hirr m₁
  have hv := h.path.valid' m
  have hsub : ∀ a, a ∈ tb m ↔ a ∈ bb m := by
    have hin : ∀ a, p a = true → a ∈ tb m ∧ a ∈ bb m := by
      intro a ha
      have ha : Often (fun m => l m = a) := by simpa [hp] using ha
      obtain ⟨n, hn, hwn⟩ := h.wins ha m
      obtain ⟨-, -, h3, h4⟩ := hst n (le_trans hm hn)
      rw [hwn] at h3 h4
      exact ⟨(hperm m n hm hn).1.mem_iff.mp h3, (hperm m n hm hn).2.mem_iff.mp h4⟩
    intro a
    constructor
    · intro ha; exact (hin a (List.mem_takeWhile_imp ha)).2
    · intro ha; exact (hin a (List.mem_takeWhile_imp ha)).1
  have hnt : (tb m).Nodup := hv.nodup.sublist (List.takeWhile_sublist _)
  have hnb : (bb m).Nodup := hv.nodup_bottom.sublist (List.takeWhile_sublist _)
  have hpm : (tb m).Perm (bb m) := (List.perm_ext_iff_of_nodup hnt hnb).mpr hsub
  have htake : ∀ s : List Label, s.take (s.takeWhile p).length = s.takeWhile p := by
    intro s
    induction s with
    | nil => rfl
    | cons a s ih =>
      rw [List.takeWhile_cons]
      split
      · simp [ih]
      · simp
  refine hI (tb m).length ?_ ?_ ?_
  · obtain ⟨-, -, h3, -⟩ := hst m hm
    exact List.length_pos_of_mem h3
  · rcases Nat.lt_or_ge (tb m).length (E m).top.length with h1 | h1
    · exact h1
    · exfalso
      have h2 : (E m).top.takeWhile p = (E m).top :=
        (List.takeWhile_sublist p).eq_of_length_le h1
      have h3 : z ∈ (E m).top := h.path.mem.mp hz
      rw [← h2] at h3
      have := List.mem_takeWhile_imp h3
      exact hz' (by simpa [hp] using this)
  · have h1 : (E m).top.take (tb m).length = tb m := htake _
    have h2 : (E m).bottom.take (tb m).length = bb m := by rw [hpm.length_eq]; exact htake _
    rw [h1, h2]
    exact hpm

theorem exists_half (hs : ∀ η : T, 0 < η → ∃ ε, 0 < ε ∧ ε < η) (η : T) (hη : 0 < η) : ∃ ε, 0 < ε ∧ ε + ε ≤ η := by
  obtain ⟨ε, h1, h2⟩ := hs η hη
  rcases le_total (ε + ε) η with h | h
  · exact ⟨ε, h1, h⟩
  · exact ⟨η - ε, by linarith, by linarith⟩

theorem exists_parts (hs : ∀ η : T, 0 < η → ∃ ε, 0 < ε ∧ ε < η) (n : ℕ) : ∀ η : T, 0 < η → ∃ ε, 0 < ε ∧ n • ε < η := by
  induction n with
  | zero => intro η hη; exact ⟨η, hη, by simpa using hη⟩
  | succ n ih =>
    intro η hη
    obtain ⟨ε₁, h1, h2⟩ := exists_half hs η hη
    obtain ⟨ε₂, h3, h4⟩ := ih ε₁ h1
    refine ⟨min ε₁ ε₂, lt_min h1 h3, ?_⟩
    have h5 := nsmul_le_nsmul_right (min_le_right ε₁ ε₂) n
    have h6 := min_le_left ε₁ ε₂
    rw [succ_nsmul]
    linarith

theorem sumLen_le_nsmul {len : Label → T} {ε : T} : ∀ {s : List Label}, (∀ a ∈ s, len a ≤ ε) → sumLen len s ≤ s.length • ε
  | [], _ => by simp [sumLen]
  | a :: s, h => by
    have h1 := sumLen_le_nsmul (s := s) (fun b hb => h b (List.mem_cons_of_mem _ hb))
    have h2 := h a (by simp)
    rw [sumLen, List.length_cons, succ_nsmul]
    linarith

/-- **The interval shrinks to a point.** -/
theorem RauzyPath.shrinks (h : RauzyPath E) (hirr : Often (fun m => (E m).Irreducible)) {η : T} (hη : 0 < η) : ∃ m₀, ∀ m, m₀ ≤ m → (E m).total < η := by
  obtain ⟨w, l, hg⟩ := h.game
  have hall := hg.often hirr
  obtain ⟨z, hz⟩ := List.exists_mem_of_ne_nil _ h.valid.ne_nil
  have hs : ∀ η : T, 0 < η → ∃ ε, 0 < ε ∧ ε < η := by
    intro η hη
    obtain ⟨m, hm⟩ := hg.small (hall z hz) hη
    exact ⟨_, (h.valid' m).pos z (h.mem.mp hz), hm⟩
  obtain ⟨ε, h1, h2⟩ := exists_parts hs (E 0).top.length η hη
  have key : ∀ s : List Label, (∀ a ∈ s, a ∈ (E 0).top) → ∃ m, ∀ a ∈ s, (E m).len a ≤ ε := by
    intro s
    induction s with
    | nil => intro _; exact ⟨0, by simp⟩
    | cons a s ih =>
      intro hs'
      obtain ⟨m₁, hm₁⟩ := ih (fun b hb => hs' b (List.mem_cons_of_mem _ hb))
      obtain ⟨m₂, hm₂⟩ := hg.small (hall a (hs' a (by simp))) h1
      refine ⟨max m₁ m₂, fun b hb => ?_⟩
      rcases List.mem_cons.mp hb with rfl | hb
      · exact le_trans (hg.len_le (le_max_right _ _) _) hm₂.le
      · exact le_trans (hg.len_le (le_max_left _ _) _) (hm₁ b hb)
  obtain ⟨m₀, hm₀⟩ := key (E 0).top (fun a ha => ha)
  refine ⟨m₀, fun m hm => lt_of_le_of_lt ?_ h2⟩
  have hp : (E m).top.Perm (E 0).top := Steps.top_perm (h.steps (Nat.zero_le m))
  unfold AIET.total
  rw [← hp.length_eq]
  exact sumLen_le_nsmul (fun a ha => le_trans (hg.len_le hm a) (hm₀ a (hp.mem_iff.mp ha)))

end Verif
