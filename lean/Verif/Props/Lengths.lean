import Verif.Examples

/-!
# C26, C27, C30: sample lengths
-/

namespace Verif

set_option linter.unusedSectionVars false

variable {T : Type} [CommRing T] [LinearOrder T] [IsStrictOrderedRing T] {d : ℕ} {c : T →+ (Fin d → ℚ)}

/-- **C26** The effect of `subtractRepeated`. -/
theorem C26_subtractRepeated {A : Arith T} (hA : A.Lawful c) (a : Label) (s : SLengths T) (ha : a < s.lengths.length)
    (hst : ∀ x ∈ s.stack, x < s.lengths.length) (has : a ∉ s.stack) (hp : ∀ x ∈ s.stack, 0 < s.lengths.getD x 0)
    (hlt : sumLen (fun x => s.lengths.getD x 0) s.stack < s.lengths.getD a 0) (hne : s.stack ≠ []) :
    ∃ (stop : Label) (lengths : List T) (k : ℕ) (pre : List Label) (l : Label) (post : List Label),
      s.subtractRepeated A a = .ok (stop, ⟨[], lengths⟩) ∧
      lengths.length = s.lengths.length ∧ (∀ x, x ≠ a → lengths.getD x 0 = s.lengths.getD x 0) ∧
      s.stack = pre ++ l :: post ∧ 1 ≤ k ∧
      lengths.getD a 0 = s.lengths.getD a 0 - (k * sumLen (fun x => s.lengths.getD x 0) s.stack +
        sumLen (fun x => s.lengths.getD x 0) pre) ∧
      0 < lengths.getD a 0 ∧ lengths.getD a 0 ≤ s.lengths.getD l 0 ∧
      some stop = (if pre = [] then s.stack.getLast? else pre.getLast?) := by
  obtain ⟨stop, s', k, pre, l, post, g1, g2, g3, g4, g5, g6, g7, g8, g9⟩ :=
    SLengths.subtractRepeated_spec hA a s ha hst has hp hlt hne
  refine ⟨stop, s'.lengths, k, pre, l, post, ?_, g2, ?_, g3, g4, ?_, g6, g7, g9⟩
  · rw [g1, ← g8]
  · intro x hx
    have := congrFun g5 x
    simpa [shorten, hx, SLengths.len] using this
  · have := congrFun g5 a
    simp only [shorten, if_true] at this
    exact this

/-- **C26** With an empty stack, `subtractRepeated` throws. -/
theorem C26_empty_stack (A : Arith T) (a : Label) (s : SLengths T) (h : s.stack = []) :
    s.subtractRepeated A a = .error .invalidArgument := by
  simp [SLengths.subtractRepeated, h]

/-- **C26** `subtract` subtracts the sum of the lengths on the stack and empties it. -/
theorem C26_subtract (a : Label) (s : SLengths T) (ha : a < s.lengths.length) (hst : ∀ x ∈ s.stack, x < s.lengths.length)
    (hlt : sumLen (fun x => s.lengths.getD x 0) s.stack < s.lengths.getD a 0) :
    s.subtract a = .ok ⟨[], s.lengths.set a (s.lengths.getD a 0 - sumLen (fun x => s.lengths.getD x 0) s.stack)⟩ := by
  have hpos : 0 < s.len a - sumLen s.len s.stack := by unfold SLengths.len; linarith
  simp only [SLengths.subtract, SLengths.at'_eq ha, SLengths.value_eq hst, bind, Except.bind, SLengths.set_eq ha]
  rw [SLengths.at'_eq (by simpa using ha)]
  simp only [SLengths.len_set ha, if_true, assertM, hpos, decide_true]
  rfl

/-- Lengths 17, 2, 3; the labels 1 and 2 are on the stack: 17 = 3 * (2 + 3) + 2 so 17 becomes 2. -/
example : (⟨[1, 2], [17, 2, 3]⟩ : SLengths ℤ).subtractRepeated intArith 0 = .ok (2, ⟨[], [2, 2, 3]⟩) ∧
    (⟨[1, 2], [18, 2, 3]⟩ : SLengths ℤ).subtractRepeated intArith 0 = .ok (1, ⟨[], [1, 2, 3]⟩) ∧
    (⟨[1, 2], [20, 2, 3]⟩ : SLengths ℤ).subtractRepeated intArith 0 = .ok (1, ⟨[], [3, 2, 3]⟩) := by decide

/-- **C27** The quotients for machine integers, `mpz_class` and `mpq_class` are floors. -/
theorem C27_floor_division :
    (∀ x y : ℤ, 0 ≤ x → 0 < y → intFloorDivision x y = .ok ⌊(x : ℚ) / y⌋) ∧
    (∀ x y : ℤ, 0 ≤ x → 0 < y → mpzFloorDivision x y = .ok ⌊(x : ℚ) / y⌋) ∧
    (∀ x y : ℚ, 0 ≤ x → 0 < y → mpqFloorDivision x y = .ok ⌊x / y⌋) := by
  have key : ∀ (x y : ℚ) (q : ℤ), 0 < y → (q : ℚ) * y ≤ x → x < (q + 1) * y → q = ⌊x / y⌋ := by
    intro x y q hy h1 h2
    symm
    rw [Int.floor_eq_iff]
    exact ⟨(le_div_iff₀ hy).mpr h1, (div_lt_iff₀ hy).mpr h2⟩
  refine ⟨?_, ?_, ?_⟩
  · intro x y hx hy
    obtain ⟨q, h1, h2, h3⟩ := intFloorDivision_spec hx hy
    rw [h1, key x y q (by exact_mod_cast hy) (by exact_mod_cast h2) (by exact_mod_cast h3)]
  · intro x y hx hy
    obtain ⟨q, h1, h2, h3⟩ := mpzFloorDivision_spec hx hy
    rw [h1, key x y q (by exact_mod_cast hy) (by exact_mod_cast h2) (by exact_mod_cast h3)]
  · intro x y hx hy
    obtain ⟨q, h1, h2, h3⟩ := mpqFloorDivision_spec hx hy
    rw [h1, key x y q hy h2 h3]

/-- The quotient of 7/2 by 2/3 is 5. -/
example : mpqFloorDivision (7/2) (2/3) = .ok 5 := by decide +kernel

/-- **C30** `only` keeps the lengths of the given labels and sets all others to zero. -/
theorem C30_only (keep : List Label) (s : SLengths T) (h : ∀ x ∈ s.lengths, 0 ≤ x) :
    ∃ lengths : List T, s.only keep = .ok ⟨[], lengths⟩ ∧ lengths.length = s.lengths.length ∧
      ∀ a, lengths.getD a 0 = if a ∈ keep then s.lengths.getD a 0 else 0 := by
  obtain ⟨s', h1, h2, h3, h4⟩ := only_spec keep s h
  refine ⟨s'.lengths, by rw [h1, ← h2], h3, ?_⟩
  intro a
  by_cases ha : a < s.lengths.length
  · rw [List.getD_eq_getElem?_getD, h4 a ha]
    by_cases hk : a ∈ keep
    · simp [hk, List.getD_eq_getElem?_getD]
    · simp [hk]
  · rw [List.getD_eq_default _ _ (by omega), List.getD_eq_default _ _ (by omega)]
    simp

/-- **C30** `forget` is a copy with an empty stack. -/
theorem C30_forget (s : SLengths T) (h : ∀ x ∈ s.lengths, 0 ≤ x) : s.forget = .ok ⟨[], s.lengths⟩ := make_spec h

/-- **C30** For non-zero lengths, `similar` compares cross products, i.e., the ratios of lengths. -/
theorem C30_similar {K : Type} [Field K] [LinearOrder K] [IsStrictOrderedRing K] (s : SLengths K) (o : SLengths K)
    {a b aa bb : Label} (ha : a < s.lengths.length) (hb : b < s.lengths.length) (haa : aa < o.lengths.length)
    (hbb : bb < o.lengths.length) (h1 : 0 < s.lengths[a]) (h2 : 0 < s.lengths[b])
    (h4 : 0 < o.lengths[bb]) :
    s.similar a b o.at' aa bb = .ok (decide (s.lengths[a] / s.lengths[b] = o.lengths[aa] / o.lengths[bb])) := by
  rw [similar_spec (x := s.lengths[a]) (y := s.lengths[b]) (ox := o.lengths[aa]) (oy := o.lengths[bb])
    (List.getElem?_eq_getElem ha) (List.getElem?_eq_getElem hb)
    (by simp [SLengths.at', List.getElem?_eq_getElem haa]) (by simp [SLengths.at', List.getElem?_eq_getElem hbb]) h1.ne' h2.ne']
  congr 1
  rw [decide_eq_decide, div_eq_div_iff h2.ne' h4.ne']
  constructor <;> intro h <;> linarith

/-- Keeping label 1 of three labels, and the ratios 2 : 3 and 4 : 6. -/
example : (⟨[0], [2, 3, 4]⟩ : SLengths ℤ).only [1] = .ok ⟨[], [0, 3, 0]⟩ ∧
    (⟨[0], [2, 3, 4]⟩ : SLengths ℤ).forget = .ok ⟨[], [2, 3, 4]⟩ ∧
    (⟨[], [2, 3]⟩ : SLengths ℤ).similar 0 1 (⟨[], [4, 6]⟩ : SLengths ℤ).at' 0 1 = .ok true ∧
    (⟨[], [2, 3]⟩ : SLengths ℤ).similar 0 1 (⟨[], [4, 6]⟩ : SLengths ℤ).at' 1 0 = .ok false := by decide

end Verif
