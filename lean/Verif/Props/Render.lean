import Verif.Model.Render
import Mathlib.Tactic.Linarith

/-!
# C29: names of labels
-/

namespace Verif

theorem letter_injective : ∀ i : Fin 52, ∀ j : Fin 52, letter i = letter j → i = j := by decide

theorem letter_alpha : ∀ i : Fin 52, (letter i).isAlpha = true := by decide

theorem letter_inj {i j : ℕ} (hi : i < 52) (hj : j < 52) (h : letter i = letter j) : i = j :=
  congrArg Fin.val (letter_injective ⟨i, hi⟩ ⟨j, hj⟩ h)

theorem renderRest_zero : renderRest 0 = [] := by rw [renderRest]; simp

theorem renderRest_pos {m : ℕ} (h : m ≠ 0) : renderRest m = letter (m % 52) :: renderRest (m / 52) := by
  rw [renderRest]; simp [h]

theorem renderRest_inj : ∀ m n : ℕ, renderRest m = renderRest n → m = n := by
  intro m
  induction m using Nat.strong_induction_on with
  | _ m ih =>
    intro n h
    by_cases hm : m = 0
    · by_cases hn : n = 0
      · omega
      · rw [hm, renderRest_zero, renderRest_pos hn] at h; cases h
    · by_cases hn : n = 0
      · rw [hn, renderRest_zero, renderRest_pos hm] at h; cases h
      · rw [renderRest_pos hm, renderRest_pos hn] at h
        injection h with h1 h2
        have := letter_inj (Nat.mod_lt _ (by norm_num)) (Nat.mod_lt _ (by norm_num)) h1
        have := ih (m / 52) (by omega) _ h2
        omega

theorem renderRest_alpha : ∀ m : ℕ, ∀ ch ∈ renderRest m, ch.isAlpha = true := by
  intro m
  induction m using Nat.strong_induction_on with
  | _ m ih =>
    intro ch hch
    by_cases hm : m = 0
    · rw [hm, renderRest_zero] at hch; cases hch
    · rw [renderRest_pos hm] at hch
      rcases List.mem_cons.mp hch with rfl | h
      · exact letter_alpha ⟨m % 52, Nat.mod_lt _ (by norm_num)⟩
      · exact ih (m / 52) (by omega) _ h

/-- **C29** Two labels are rendered to the same string iff they are the same. -/
theorem C29_render_injective (l l' : Label) : render l = render l' ↔ l = l' := by
  constructor
  · intro h
    unfold render at h
    injection h with h1 h2
    have h3 := letter_inj (Nat.mod_lt _ (by norm_num)) (Nat.mod_lt _ (by norm_num)) h1
    have h4 := renderRest_inj _ _ h2
    rw [← Nat.div_add_mod l 52, ← Nat.div_add_mod l' 52, h3, h4]
  · rintro rfl; rfl

/-- **C29** The name of a label is a non-empty string of letters. -/
theorem C29_render_letters (l : Label) : render l ≠ [] ∧ ∀ ch ∈ render l, ch.isAlpha = true := by
  refine ⟨by simp [render], ?_⟩
  intro ch hch
  rcases List.mem_cons.mp hch with rfl | h
  · exact letter_alpha ⟨l % 52, Nat.mod_lt _ (by norm_num)⟩
  · exact renderRest_alpha _ _ h

/-- The names of the first label, of the last label with one letter and of the next one. -/
example : render 0 = ['a'] ∧ render 51 = ['Z'] ∧ render 52 = ['a', 'b'] := by
  simp [render, renderRest_zero, renderRest_pos, letter]

end Verif
