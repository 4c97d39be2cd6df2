import Verif.Proofs.Rounds
import Verif.Proofs.Commensurable
import Mathlib.Data.Nat.Log
import Mathlib.Algebra.Order.BigOperators.Group.Finset

/-!
# The number of rounds of induction is logarithmic in the lengths
-/

namespace Verif

set_option linter.unusedSectionVars false

/-! ### The potential -/

/-- A number that drops in each phase of the induction; `k` are the lengths, `x` is the label of the interval that has been shortened
last. -/
def pot (k : Label → ℕ) (S : Finset Label) (x : Label) : ℕ :=
  S.card * ∑ a ∈ S, Nat.log 2 (k a) + (S.filter (fun a => Nat.log 2 (k x) < Nat.log 2 (k a))).card

theorem pot_drop {k k' : Label → ℕ} {S : Finset Label} {x y : Label} (hx : x ∈ S) (hy : y ∈ S) (hk : ∀ a, a ≠ y → k' a = k a)
    (hx0 : 0 < k x) (hy0 : 0 < k' y) (hd : k' y + k x ≤ k y) : pot k' S y + 1 ≤ pot k S x := by
  have hle : Nat.log 2 (k' y) ≤ Nat.log 2 (k y) := Nat.log_mono_right (by omega)
  have hall : ∀ a ∈ S, Nat.log 2 (k' a) ≤ Nat.log 2 (k a) := by
    intro a _
    by_cases h : a = y
    · rw [h]; exact hle
    · rw [hk a h]
  unfold pot
  rcases Nat.lt_or_ge (Nat.log 2 (k' y)) (Nat.log 2 (k y)) with h | h
  · have h1 := Finset.sum_lt_sum hall ⟨y, hy, h⟩
    have h2 : (S.filter (fun a => Nat.log 2 (k' y) < Nat.log 2 (k' a))).card < S.card := by
      apply Finset.card_lt_card
      rw [Finset.filter_ssubset]
      exact ⟨y, hy, lt_irrefl _⟩
    have h3 := Nat.mul_le_mul_left S.card (Nat.succ_le_of_lt h1)
    rw [Nat.mul_succ] at h3
    omega
  · have heq : Nat.log 2 (k' y) = Nat.log 2 (k y) := le_antisymm hle h
    have hall' : ∀ a ∈ S, Nat.log 2 (k' a) = Nat.log 2 (k a) := by
      intro a _
      by_cases h : a = y
      · rw [h]; exact heq
      · rw [hk a h]
    have hxy : Nat.log 2 (k x) < Nat.log 2 (k y) := by
      have h1 := Nat.pow_log_le_self 2 (Nat.pos_iff_ne_zero.mp hy0)
      have h2 := Nat.lt_pow_succ_log_self (b := 2) (by norm_num) (k y)
      rw [heq] at h1
      rw [pow_succ] at h2
      exact Nat.log_lt_of_lt_pow (Nat.pos_iff_ne_zero.mp hx0) (by omega)
    rw [Finset.sum_congr rfl hall']
    have h2 : (S.filter (fun a => Nat.log 2 (k' y) < Nat.log 2 (k' a))).card < (S.filter (fun a => Nat.log 2 (k x) < Nat.log 2 (k a))).card := by
      apply Finset.card_lt_card
      rw [Finset.ssubset_iff_of_subset]
      · exact ⟨y, by simp [hy, hxy], by simp⟩
      · intro a ha
        rw [Finset.mem_filter] at ha ⊢
        rw [hall' a ha.1, heq] at ha
        exact ⟨ha.1, lt_trans hxy ha.2⟩
    omega

theorem pot_le (k : Label → ℕ) {S : Finset Label} {x : Label} (hx : x ∈ S) :
    pot k S x + 1 ≤ S.card * (1 + ∑ a ∈ S, Nat.log 2 (k a)) := by
  have h2 : (S.filter (fun a => Nat.log 2 (k x) < Nat.log 2 (k a))).card < S.card := by
    apply Finset.card_lt_card
    rw [Finset.filter_ssubset]
    exact ⟨x, hx, lt_irrefl _⟩
  unfold pot
  rw [Nat.mul_add]
  omega

/-! ### Phases -/

variable {T : Type} [CommRing T] [LinearOrder T] [IsStrictOrderedRing T]

theorem RauzyTop.data {A B : AIET T} (h : RauzyTop A B) : ∃ a b, A.top.head? = some a ∧ A.bottom.head? = some b ∧ A.len b < A.len a ∧
    B.top = A.top ∧ B.len = shorten A.len a (A.len b) := by
  cases h with
  | mk a b t l₁ l₂ len hlt => exact ⟨a, b, rfl, rfl, hlt, rfl, rfl⟩

theorem RauzyTop.exists_of_lt {A : AIET T} (hA : A.Valid) {a b : Label} (ha : A.top.head? = some a) (hb : A.bottom.head? = some b)
    (hlt : A.len b < A.len a) : ∃ B, RauzyTop A B := by
  obtain ⟨top, bot, len⟩ := A
  cases top with
  | nil => cases ha
  | cons a' t =>
  cases bot with
  | nil => cases hb
  | cons b' l =>
  simp only [List.head?_cons, Option.some.injEq] at ha hb
  subst ha hb
  have hm : a' ∈ b' :: l := hA.perm.mem_iff.mpr (by simp)
  rcases List.mem_cons.mp hm with e | hm
  · rw [e] at hlt; exact absurd hlt (lt_irrefl _)
  · obtain ⟨l₁, l₂, rfl⟩ := List.append_of_mem hm
    exact ⟨_, .mk a' b' t l₁ l₂ len hlt⟩

theorem RauzyRun.data {A B : AIET T} (hA : A.Valid) (h : Relation.ReflTransGen RauzyTop A B) {a : Label} (ha : A.top.head? = some a) :
    B.top = A.top ∧ (∀ x, x ≠ a → B.len x = A.len x) ∧ B.len a ≤ A.len a := by
  induction h with
  | refl => exact ⟨rfl, fun _ _ => rfl, le_refl _⟩
  | @tail B C h1 h2 ih =>
    obtain ⟨e1, e2, e3⟩ := ih
    have hB := RauzyRun.valid hA h1
    obtain ⟨a', b, f1, f2, f3, f4, f5⟩ := h2.data
    rw [e1, ha] at f1
    cases f1
    refine ⟨f4.trans e1, fun x hx => ?_, ?_⟩
    · rw [f5, ← e2 x hx]
      simp [shorten, hx]
    · rw [f5]
      have := hB.pos b (hB.perm.mem_iff.mp (List.mem_of_head? f2))
      simp only [shorten, if_true]
      linarith

/-- What happens in a phase of the induction. -/
theorem TopPhase.drop {A B : AIET T} (hA : A.Valid) (h : TopPhase A B) (hl : ¬ B.Level) {a b : Label} (ha : A.top.head? = some a)
    (hb : A.bottom.head? = some b) : B.top = A.top ∧ (∀ x, x ≠ a → B.len x = A.len x) ∧ B.len a ≤ A.len a ∧
      (A.len b < A.len a → B.len a + A.len b ≤ A.len a) ∧ ∃ b', B.bottom.head? = some b' ∧ B.len a < B.len b' := by
  obtain ⟨e1, e2, e3⟩ := RauzyRun.data hA h.1 ha
  have hB := h.valid hA
  refine ⟨e1, e2, e3, fun hlt => ?_, ?_⟩
  · rcases Relation.ReflTransGen.cases_head h.1 with e | ⟨C, hC, hCB⟩
    · subst e
      obtain ⟨D, hD⟩ := RauzyTop.exists_of_lt hA ha hb hlt
      exact absurd hD (h.2 D)
    · obtain ⟨a', b'', f1, f2, f3, f4, f5⟩ := hC.data
      rw [ha] at f1; cases f1
      rw [hb] at f2; cases f2
      have h6 := (RauzyRun.data (RauzyRun.valid hA (.single hC)) hCB (by rw [f4, ha])).2.2
      rw [f5] at h6
      simp only [shorten, if_true] at h6
      linarith
  · obtain ⟨a', b', g1, g2⟩ := hB.heads
    rw [e1, ha] at g1
    cases g1
    refine ⟨b', g2, ?_⟩
    rcases lt_trichotomy (B.len a) (B.len b') with g | g | g
    · exact g
    · exact absurd ⟨a, b', by rw [e1, ha], g2, g⟩ hl
    · obtain ⟨D, hD⟩ := RauzyTop.exists_of_lt hB (by rw [e1, ha]) g2 g
      exact absurd hD (h.2 D)

/-- The multiples after a phase. -/
theorem TopPhase.mult {u : T} (hu : 0 < u) {k : Label → ℕ} {A B : AIET T} (hA : A.Valid) (h : TopPhase A B) (hl : ¬ B.Level) {a b : Label}
    (ha : A.top.head? = some a) (hb : A.bottom.head? = some b) (hk : Mult u k A) :
    ∃ k' b', Mult u k' B ∧ (∀ x, x ≠ a → k' x = k x) ∧ k' a ≤ k a ∧ (A.len b < A.len a → k' a + k b ≤ k a) ∧
      B.top = A.top ∧ B.bottom.head? = some b' ∧ B.len a < B.len b' := by
  obtain ⟨e1, e2, e3, e4, b', e5, e6⟩ := h.drop hA hl ha hb
  have hB := h.valid hA
  have hs : Steps A B := RauzyRun.steps h.1
  obtain ⟨k₁, hk₁⟩ := Steps.mult_fwd hu hA hs hk
  have ham : a ∈ A.top := List.mem_of_head? ha
  have hbm : b ∈ A.top := hA.perm.mem_iff.mp (List.mem_of_head? hb)
  have hcast : ∀ m n : ℕ, (m : T) * u ≤ (n : T) * u → m ≤ n := by
    intro m n hmn
    exact_mod_cast le_of_mul_le_mul_right hmn hu
  have h1 := hk₁ a (by rw [e1]; exact ham)
  refine ⟨fun x => if x = a then k₁ a else k x, b', ?_, ?_, ?_, ?_, e1, e5, e6⟩
  · intro x hx
    simp only
    split
    · rename_i e; rw [e]; exact h1
    · rename_i e
      rw [e2 x e]
      exact hk x (by rw [e1] at hx; exact hx)
  · intro x hx; simp [hx]
  · simp only [if_true]
    rw [h1, hk a ham] at e3
    exact hcast _ _ e3
  · intro hlt
    have := e4 hlt
    rw [h1, hk a ham, hk b hbm] at this
    simp only [if_true]
    apply hcast
    push_cast
    linarith

theorem BottomPhase.mult {u : T} (hu : 0 < u) {k : Label → ℕ} {A B : AIET T} (hA : A.Valid) (h : BottomPhase A B) (hl : ¬ B.Level) {a b : Label}
    (ha : A.top.head? = some a) (hb : A.bottom.head? = some b) (hk : Mult u k A) :
    ∃ k' a', Mult u k' B ∧ (∀ x, x ≠ b → k' x = k x) ∧ k' b ≤ k b ∧ (A.len a < A.len b → k' b + k a ≤ k b) ∧
      B.bottom = A.bottom ∧ B.top.head? = some a' ∧ B.len b < B.len a' ∧ B.Valid := by
  have hv : B.Valid := by have := (TopPhase.valid hA.inv h).inv; exact this
  obtain ⟨k', a', h1, h2, h3, h4, h5, h6, h7⟩ := TopPhase.mult hu hA.inv h (fun h => hl (AIET.level_inv.mp h)) (a := b) (b := a) hb ha (hk.inv hA)
  exact ⟨k', a', h1.of_inv hv, h2, h3, h4, h5, h6, h7, hv⟩

/-- The number of rounds that are possible. -/
theorem rounds_pot {u : T} (hu : 0 < u) {S : Finset Label} : ∀ (n : ℕ) {A B : AIET T} {k : Label → ℕ} {a b : Label}, A.Valid → Mult u k A →
    (∀ x, x ∈ A.top → x ∈ S) → A.top.head? = some a → A.bottom.head? = some b → A.len b < A.len a → Iter Round n A B → 2 * n ≤ pot k S b
  | 0, _, _, _, _, _, _, _, _, _, _, _, _ => by omega
  | n + 1, A, B, k, a, b, hA, hk, hS, ha, hb, hlt, ⟨C, ⟨D, h1, h2, h3, h4⟩, h5⟩ => by
    have ham : a ∈ A.top := List.mem_of_head? ha
    have hbm : b ∈ A.top := hA.perm.mem_iff.mp (List.mem_of_head? hb)
    obtain ⟨k₁, b₁, e1, e2, e3, e4, e5, e6, e7⟩ := h1.mult hu hA h2 ha hb hk
    have hD := h1.valid hA
    have haD : D.top.head? = some a := by rw [e5, ha]
    have hb₁ : b₁ ∈ D.top := hD.perm.mem_iff.mp (List.mem_of_head? e6)
    obtain ⟨k₂, a₂, f1, f2, f3, f4, f5, f6, f7, hC⟩ := BottomPhase.mult hu hD h3 h4 haD e6 e1
    have hSD : ∀ x, x ∈ D.top → x ∈ S := by rw [e5]; exact hS
    have hSC : ∀ x, x ∈ C.top → x ∈ S := by
      intro x hx
      apply hSD
      rw [← hD.perm.mem_iff, ← f5]
      exact hC.perm.mem_iff.mpr hx
    have hb₁C : b₁ ∈ C.top := hC.perm.mem_iff.mp (by rw [f5]; exact List.mem_of_head? e6)
    have ih := rounds_pot hu n hC f1 hSC f6 (by rw [f5]; exact e6) f7 h5
    have p1 := pot_drop (hS b hbm) (hS a ham) e2 (hk.pos hu hA hbm) (e1.pos hu hD (List.mem_of_head? haD)) (e4 hlt)
    have p2 := pot_drop (hSD a (List.mem_of_head? haD)) (hSD b₁ hb₁) f2 (e1.pos hu hD (List.mem_of_head? haD)) (f1.pos hu hC hb₁C) (f4 e7)
    omega

/-- The number of rounds is logarithmic in the lengths. -/
theorem rounds_log {u : T} (hu : 0 < u) {A B : AIET T} {k : Label → ℕ} (hA : A.Valid) (hk : Mult u k A) {n : ℕ} (h : Iter Round n A B) :
    2 * n ≤ A.top.length * (1 + (A.top.map (fun a => Nat.log 2 (k a))).sum) := by
  have hcard : A.top.toFinset.card = A.top.length := List.toFinset_card_of_nodup hA.nodup
  have hsum : ∑ a ∈ A.top.toFinset, Nat.log 2 (k a) = (A.top.map (fun a => Nat.log 2 (k a))).sum := List.sum_toFinset _ hA.nodup
  rw [← hcard, ← hsum]
  cases n with
  | zero => omega
  | succ n =>
    obtain ⟨C, ⟨D, h1, h2, h3, h4⟩, h5⟩ := h
    obtain ⟨a, b, ha, hb⟩ := hA.heads
    obtain ⟨k₁, b₁, e1, e2, e3, e4, e5, e6, e7⟩ := h1.mult hu hA h2 ha hb hk
    have hD := h1.valid hA
    have haD : D.top.head? = some a := by rw [e5, ha]
    have hb₁ : b₁ ∈ D.top := hD.perm.mem_iff.mp (List.mem_of_head? e6)
    obtain ⟨k₂, a₂, f1, f2, f3, f4, f5, f6, f7, hC⟩ := BottomPhase.mult hu hD h3 h4 haD e6 e1
    have hSD : ∀ x, x ∈ D.top → x ∈ A.top.toFinset := by rw [e5]; simp
    have hSC : ∀ x, x ∈ C.top → x ∈ A.top.toFinset := by
      intro x hx
      apply hSD
      rw [← hD.perm.mem_iff, ← f5]
      exact hC.perm.mem_iff.mpr hx
    have hb₁C : b₁ ∈ C.top := hC.perm.mem_iff.mp (by rw [f5]; exact List.mem_of_head? e6)
    have p0 := rounds_pot hu n hC f1 hSC f6 (by rw [f5]; exact e6) f7 h5
    have p2 := pot_drop (hSD a (List.mem_of_head? haD)) (hSD b₁ hb₁) f2 (e1.pos hu hD (List.mem_of_head? haD)) (f1.pos hu hC hb₁C) (f4 e7)
    have p3 := pot_le k₁ (hSD a (List.mem_of_head? haD))
    have p4 : ∑ a ∈ A.top.toFinset, Nat.log 2 (k₁ a) ≤ ∑ a ∈ A.top.toFinset, Nat.log 2 (k a) := by
      apply Finset.sum_le_sum
      intro x _
      apply Nat.log_mono_right
      by_cases hx : x = a
      · rw [hx]; exact e3
      · rw [e2 x hx]
    have p5 := Nat.mul_le_mul_left A.top.toFinset.card (Nat.add_le_add_left p4 1)
    omega

variable {σ ε : Type} {O : LengthsOps σ T} {d : ℕ} {c : T →+ (Fin d → ℚ)}

/-- The bound for the number of rounds, times two. -/
def logBound (k : Label → ℕ) (l : List Label) : ℕ := l.length * (1 + (l.map (fun a => Nat.log 2 (k a))).sum)

theorem induce_limit_log (H : LawfulLengths O c ε) {L : PPL} (hL : L.Lawful) {fuel : ℕ} {limit : ℤ} {E : IET T} {s : σ} (h : H.Good E s)
    {step : InductionStep T} {E' : IET T} {s' : σ} (hr : E.induce L O fuel limit s = .ok (step, E', s'))
    (hres : step.result = .limitReached) (hlim : limit ≠ -1) {u : T} (hu : 0 < u) {k : Label → ℕ} (hk : Mult u k (H.abs E s)) :
    2 * limit.toNat ≤ logBound k E.top := by
  have := induce_rounds H hL h hr
  cases this with
  | cylinder => cases hres
  | auto => cases hres
  | all _ hi _ => exact rounds_log hu h.ok.valid hk hi
  | found _ _ _ hf he =>
    exfalso
    cases hf with
    | separating => cases hres
    | nonSeparating => cases hres
    | boshernitzan => cases hres
    | limit _ _ _ hne => exact hne he

end Verif
