import Mathlib.Algebra.Order.Field.Rat
import Mathlib.Algebra.BigOperators.Fin
import Mathlib.Tactic.Linarith
import Mathlib.Tactic.Ring
import Mathlib.Tactic.FieldSimp
import Mathlib.Data.Fin.Tuple.Basic

/-!
# Gordan's alternative over the rationals
-/

namespace Verif

open Finset

/-- Combinations of vectors with non-negative coefficients which are not all zero. -/
inductive PosComb {d : ℕ} (vs : List (Fin d → ℚ)) : (Fin d → ℚ) → Prop
  | base {v} : v ∈ vs → PosComb vs v
  | add {v w} : PosComb vs v → PosComb vs w → PosComb vs (v + w)
  | smul {v} (k : ℚ) : 0 < k → PosComb vs v → PosComb vs (k • v)

/-- Between finitely many lower and finitely many upper bounds there is room. -/
theorem exists_between_lists (A B : List ℚ) (h : ∀ a ∈ A, ∀ b ∈ B, a < b) :
    ∃ y, (∀ a ∈ A, a < y) ∧ ∀ b ∈ B, y < b := by
  have hmax : ∀ A : List ℚ, A ≠ [] → ∃ m ∈ A, ∀ a ∈ A, a ≤ m := by
    intro A
    induction A with
    | nil => intro h; exact absurd rfl h
    | cons a A ih =>
      intro _
      by_cases hA : A = []
      · subst hA; exact ⟨a, by simp, by simp⟩
      · obtain ⟨m, hm, hm'⟩ := ih hA
        by_cases hc : a ≤ m
        · exact ⟨m, by simp [hm], by simp [hc]; exact hm'⟩
        · refine ⟨a, by simp, ?_⟩
          intro x hx
          rcases List.mem_cons.mp hx with rfl | hx
          · exact le_refl _
          · exact (hm' x hx).trans (le_of_lt (not_le.mp hc))
  have hmin : ∀ A : List ℚ, A ≠ [] → ∃ m ∈ A, ∀ a ∈ A, m ≤ a := by
    intro A hA
    obtain ⟨m, hm, hm'⟩ := hmax (A.map (fun x => -x)) (by simpa using hA)
    obtain ⟨x, hx, rfl⟩ := List.mem_map.mp hm
    refine ⟨x, hx, ?_⟩
    intro a ha
    have := hm' (-a) (List.mem_map.mpr ⟨a, ha, rfl⟩)
    linarith
  by_cases hA : A = []
  · by_cases hB : B = []
    · subst hA hB; exact ⟨0, by simp, by simp⟩
    · obtain ⟨m, _, hm⟩ := hmin B hB
      refine ⟨m - 1, by simp [hA], ?_⟩
      intro b hb; have := hm b hb; linarith
  · obtain ⟨M, hM, hM'⟩ := hmax A hA
    by_cases hB : B = []
    · refine ⟨M + 1, ?_, by simp [hB]⟩
      intro a ha; have := hM' a ha; linarith
    · obtain ⟨m, hm, hm'⟩ := hmin B hB
      have := h M hM m hm
      refine ⟨(M + m) / 2, ?_, ?_⟩
      · intro a ha; have := hM' a ha; linarith
      · intro b hb; have := hm' b hb; linarith

/-- **Gordan's alternative**: either zero is a non-trivial non-negative combination of the vectors or there
is a linear form which is positive on all of them. -/
theorem gordan : ∀ (d : ℕ) (vs : List (Fin d → ℚ)), PosComb vs 0 ∨ ∃ y : Fin d → ℚ, ∀ v ∈ vs, 0 < ∑ i, y i * v i := by
  intro d
  induction d with
  | zero =>
    intro vs
    cases vs with
    | nil => right; exact ⟨0, by simp⟩
    | cons v vs =>
      left
      have : v = 0 := by funext i; exact i.elim0
      rw [← this]; exact .base (by simp)
  | succ d ih =>
    intro vs
    let P := vs.filter (fun v => 0 < v 0)
    let Z := vs.filter (fun v => v 0 = 0)
    let N := vs.filter (fun v => v 0 < 0)
    let new : List (Fin d → ℚ) := Z.map Fin.tail ++
      P.flatMap (fun p => N.map (fun n => Fin.tail ((-(n 0)) • p + (p 0) • n)))
    have hnew : ∀ w ∈ new, PosComb vs (Fin.cons 0 w) := by
      intro w hw
      simp only [new, List.mem_append, List.mem_map, List.mem_flatMap, P, Z, N, List.mem_filter, decide_eq_true_eq] at hw
      rcases hw with ⟨z, ⟨hz, hz0⟩, rfl⟩ | ⟨p, ⟨hp, hp0⟩, n, ⟨hn, hn0⟩, rfl⟩
      · rw [← hz0, Fin.cons_self_tail]; exact .base hz
      · have h0 : ((-(n 0)) • p + (p 0) • n) 0 = 0 := by
          simp only [Pi.add_apply, Pi.smul_apply, smul_eq_mul]; ring
        rw [← h0, Fin.cons_self_tail]
        exact .add (.smul _ (by linarith) (.base hp)) (.smul _ hp0 (.base hn))
    rcases ih new with h | ⟨y, hy⟩
    · left
      have key : ∀ w, PosComb new w → PosComb vs (Fin.cons 0 w) := by
        intro w hw
        induction hw with
        | base hw => exact hnew _ hw
        | @add v w _ _ h1 h2 =>
          have : (Fin.cons 0 (v + w) : Fin (d + 1) → ℚ) = Fin.cons 0 v + Fin.cons 0 w := by
            funext i; refine Fin.cases ?_ ?_ i <;> simp
          rw [this]; exact .add h1 h2
        | @smul v k hk _ h1 =>
          have : (Fin.cons 0 (k • v) : Fin (d + 1) → ℚ) = k • Fin.cons 0 v := by
            funext i; refine Fin.cases ?_ ?_ i <;> simp
          rw [this]; exact .smul k hk h1
      have := key 0 h
      have h0 : (Fin.cons 0 (0 : Fin d → ℚ) : Fin (d + 1) → ℚ) = 0 := by
        funext i; refine Fin.cases ?_ ?_ i <;> simp
      rwa [h0] at this
    · right
      let f : (Fin (d + 1) → ℚ) → ℚ := fun v => ∑ i, y i * v i.succ
      have hf : ∀ a b : ℚ, ∀ v w, f (a • v + b • w) = a * f v + b * f w := by
        intro a b v w
        simp only [f, mul_sum, ← sum_add_distrib]
        apply sum_congr rfl
        intro i _
        simp only [Pi.add_apply, Pi.smul_apply, smul_eq_mul]; ring
      obtain ⟨y0, h1, h2⟩ := exists_between_lists (P.map (fun p => - f p / p 0)) (N.map (fun n => f n / (-(n 0)))) (by
        intro a ha b hb
        obtain ⟨p, hp, rfl⟩ := List.mem_map.mp ha
        obtain ⟨n, hn, rfl⟩ := List.mem_map.mp hb
        have hpn := hy (Fin.tail ((-(n 0)) • p + (p 0) • n)) (by
          simp only [new, List.mem_append, List.mem_flatMap, List.mem_map]
          exact .inr ⟨p, hp, n, hn, rfl⟩)
        have hp0 : 0 < p 0 := by simpa [P] using (List.mem_filter.mp hp).2
        have hn0 : n 0 < 0 := by simpa [N] using (List.mem_filter.mp hn).2
        have : 0 < f ((-(n 0)) • p + (p 0) • n) := hpn
        rw [hf] at this
        rw [div_lt_div_iff₀ hp0 (by linarith)]
        linarith)
      refine ⟨Fin.cons y0 y, ?_⟩
      intro v hv
      rw [Fin.sum_univ_succ]
      simp only [Fin.cons_zero, Fin.cons_succ]
      change 0 < y0 * v 0 + f v
      rcases lt_trichotomy (v 0) 0 with h | h | h
      · have := h2 (f v / (-(v 0))) (List.mem_map.mpr ⟨v, by simp [N, hv, h], rfl⟩)
        rw [lt_div_iff₀ (by linarith)] at this
        linarith
      · have := hy (Fin.tail v) (by
          simp only [new, List.mem_append, List.mem_map]
          exact .inl ⟨v, by simp [Z, hv, h], rfl⟩)
        rw [h, mul_zero, zero_add]; exact this
      · have := h1 (- f v / v 0) (List.mem_map.mpr ⟨v, by simp [P, hv, h], rfl⟩)
        rw [div_lt_iff₀ h] at this
        linarith

end Verif
