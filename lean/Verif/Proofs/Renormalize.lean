import Verif.Proofs.Rounds
import Verif.Proofs.Induce
import Mathlib.Tactic.Linarith
import Mathlib.Tactic.LinearCombination

/-!
# Induction on similar transformations

Elementary induction steps do the same on transformations with proportional lengths.  So if a transformation is similar to one
that it induces, then the induction never gets to the point where the first top and the first bottom interval have the same length.
-/

namespace Verif

set_option linter.unusedSectionVars false

variable {σ T ε : Type} [CommRing T] [LinearOrder T] [IsStrictOrderedRing T] {O : LengthsOps σ T} {d : ℕ} {c : T →+ (Fin d → ℚ)}

/-- The same permutation with proportional lengths. -/
structure Proportional (A B : AIET T) : Prop where
  top : A.top = B.top
  bottom : A.bottom = B.bottom
  len : ∀ a ∈ A.top, ∀ b ∈ A.top, A.len a * B.len b = A.len b * B.len a

theorem Proportional.inv {A B : AIET T} (hA : A.Valid) (h : Proportional A B) : Proportional A.inv B.inv :=
  ⟨h.bottom, h.top, fun a ha b hb => h.len a (hA.perm.mem_iff.mp ha) b (hA.perm.mem_iff.mp hb)⟩

theorem Proportional.lt {A B : AIET T} (hA : A.Valid) (hB : B.Valid) (h : Proportional A B) {a b : Label} (ha : a ∈ A.top) (hb : b ∈ A.top)
    (hlt : A.len b < A.len a) : B.len b < B.len a := by
  have h1 := h.len a ha b hb
  have pa := hA.pos a ha
  have pb := hA.pos b hb
  have qa := hB.pos a (h.top ▸ ha)
  by_contra hc
  have hc := not_lt.mp hc
  have e1 : A.len a * B.len a ≤ A.len a * B.len b := mul_le_mul_of_nonneg_left hc pa.le
  have e2 : A.len b * B.len a < A.len a * B.len a := mul_lt_mul_of_pos_right hlt qa
  linarith

theorem Proportional.rauzyTop {A B A' : AIET T} (hA : A.Valid) (hB : B.Valid) (h : Proportional A B) (hs : RauzyTop A A') :
    ∃ B', RauzyTop B B' ∧ Proportional A' B' := by
  cases hs with
  | mk a b t l₁ l₂ len hlt =>
    obtain ⟨btop, bbot, blen⟩ := B
    obtain ⟨h1, h2, h3⟩ := h
    cases h1
    cases h2
    have hbm : b ∈ a :: t := hA.perm.mem_iff.mp (by simp)
    have ham : a ∈ a :: t := by simp
    have hlt' := Proportional.lt hA hB ⟨rfl, rfl, h3⟩ ham hbm hlt
    refine ⟨_, .mk a b t l₁ l₂ blen hlt', rfl, rfl, ?_⟩
    intro x hx y hy
    simp only [shorten]
    have g1 := h3 x hx y hy
    have g2 := h3 a ham y hy
    have g3 := h3 b hbm y hy
    have g4 := h3 x hx a ham
    have g5 := h3 x hx b hbm
    simp only at g1 g2 g3 g4 g5
    split <;> split
    · ring_nf
    · subst_vars
      linear_combination g2 - g3
    · subst_vars
      linear_combination g4 - g5
    · exact g1

theorem Proportional.step {A B A' : AIET T} (hA : A.Valid) (hB : B.Valid) (h : Proportional A B) (hs : RauzyStep A A') :
    ∃ B', RauzyStep B B' ∧ Proportional A' B' := by
  rcases hs with hs | hs
  · obtain ⟨B', h1, h2⟩ := h.rauzyTop hA hB hs
    exact ⟨B', .inl h1, h2⟩
  · obtain ⟨B', h1, h2⟩ := (h.inv hA).rauzyTop hA.inv hB.inv hs
    refine ⟨B'.inv, .inr h1, ?_⟩
    exact h2.inv (Steps.valid hA.inv (.single (.inl hs)))

/-- The given number of elementary steps. -/
inductive StepsN : ℕ → AIET T → AIET T → Prop
  | zero (A : AIET T) : StepsN 0 A A
  | succ {n : ℕ} {A B C : AIET T} : RauzyStep A B → StepsN n B C → StepsN (n + 1) A C

theorem StepsN.trans {m n : ℕ} {A B C : AIET T} (h : StepsN m A B) (h' : StepsN n B C) : StepsN (m + n) A C := by
  induction h with
  | zero => simpa using h'
  | succ hs _ ih => rw [Nat.add_right_comm]; exact .succ hs (ih h')

theorem StepsN.inv {n : ℕ} {A B : AIET T} (h : StepsN n A B) : StepsN n A.inv B.inv := by
  induction h with
  | zero => exact .zero _
  | succ hs _ ih => exact .succ hs.inv ih

theorem StepsN.steps {n : ℕ} {A B : AIET T} (h : StepsN n A B) : Steps A B := by
  induction h with
  | zero => exact .refl
  | succ hs _ ih => exact .head hs ih

theorem Steps.count {A B : AIET T} (h : Steps A B) : ∃ n, StepsN n A B := by
  induction h using Relation.ReflTransGen.head_induction_on with
  | refl => exact ⟨0, .zero _⟩
  | head hs _ ih => obtain ⟨n, h⟩ := ih; exact ⟨n + 1, .succ hs h⟩

theorem TransGen.count {A B : AIET T} (h : Relation.TransGen RauzyStep A B) : ∃ n, StepsN (n + 1) A B := by
  obtain ⟨C, h1, h2⟩ := (Relation.TransGen.head'_iff).mp h
  obtain ⟨n, h2⟩ := Steps.count h2
  exact ⟨n, .succ h1 h2⟩

theorem Proportional.stepsN {n : ℕ} {A A' : AIET T} (hs : StepsN n A A') : ∀ {B : AIET T}, A.Valid → B.Valid → Proportional A B →
    ∃ B', StepsN n B B' ∧ Proportional A' B' := by
  induction hs with
  | zero => intro B _ _ h; exact ⟨B, .zero _, h⟩
  | succ hs _ ih =>
    intro B hA hB h
    obtain ⟨B₁, h1, h2⟩ := h.step hA hB hs
    obtain ⟨B', h3, h4⟩ := ih (Steps.valid hA (.single hs)) (Steps.valid hB (.single h1)) h2
    exact ⟨B', .succ h1 h3, h4⟩

/-- The first intervals at the top and at the bottom have the same length. -/
def AIET.Stuck (A : AIET T) : Prop := ∃ a b, A.top.head? = some a ∧ A.bottom.head? = some b ∧ A.len a = A.len b

theorem AIET.Stuck.inv {A : AIET T} (h : A.Stuck) : A.inv.Stuck := by
  obtain ⟨a, b, h1, h2, h3⟩ := h
  exact ⟨b, a, h2, h1, h3.symm⟩

theorem AIET.Stuck.not_top {A B : AIET T} (h : A.Stuck) : ¬ RauzyTop A B := by
  obtain ⟨a, b, h1, h2, h3⟩ := h
  intro hs
  cases hs with
  | mk a' b' t l₁ l₂ len hlt =>
    simp only [List.head?_cons, Option.some.injEq] at h1 h2
    subst h1 h2
    simp only at h3
    exact absurd hlt (by rw [h3]; exact lt_irrefl _)

theorem AIET.Stuck.not_step {A B : AIET T} (h : A.Stuck) : ¬ RauzyStep A B := by
  rintro (hs | hs)
  · exact h.not_top hs
  · exact h.inv.not_top hs

theorem Proportional.stuck {A B : AIET T} (hA : A.Valid) (h : Proportional A B) (hs : A.Stuck) : B.Stuck := by
  obtain ⟨a, b, h1, h2, h3⟩ := hs
  have ha : a ∈ A.top := List.mem_of_mem_head? h1
  have hb : b ∈ A.top := hA.perm.mem_iff.mp (List.mem_of_mem_head? h2)
  refine ⟨a, b, h.top ▸ h1, h.bottom ▸ h2, ?_⟩
  have h4 := h.len a ha b hb
  rw [h3] at h4
  exact (mul_left_cancel₀ (ne_of_gt (hA.pos b hb)) h4).symm

theorem RauzyStep.unique {A B C : AIET T} (hA : A.Valid) (h : RauzyStep A B) (h' : RauzyStep A C) : B = C := by
  have key : ∀ {A B C : AIET T}, RauzyTop A B → RauzyTop A.inv C.inv → False := by
    intro A B C h h'
    generalize hA' : A.inv = A' at h'
    generalize C.inv = C' at h'
    cases h with
    | mk a b t l₁ l₂ len hlt =>
      cases h' with
      | mk a' b' t' m₁ m₂ len' hlt' =>
        injection hA' with e1 e2 e3
        injection e1 with e1 e4
        injection e2 with e2 e5
        subst e1 e2 e3
        exact absurd hlt (not_lt.mpr hlt'.le)
  rcases h with h | h <;> rcases h' with h' | h'
  · exact RauzyTop.unique hA h h'
  · exact (key h h').elim
  · exact (key h' h).elim
  · exact inv_inj (RauzyTop.unique hA.inv h h')

theorem StepsN.le_of_stuck {m : ℕ} {A B : AIET T} (h : StepsN m A B) : A.Valid → B.Stuck → ∀ {n : ℕ} {C : AIET T}, StepsN n A C → n ≤ m := by
  induction h with
  | zero =>
    intro _ hB n C h'
    cases h' with
    | zero => exact le_refl _
    | succ hs _ => exact absurd hs hB.not_step
  | succ hs _ ih =>
    intro hA hB n C h'
    cases h' with
    | zero => exact Nat.zero_le _
    | succ hs' h' =>
      obtain rfl := RauzyStep.unique hA hs hs'
      exact Nat.succ_le_succ (ih (Steps.valid hA (.single hs)) hB h')

end Verif
