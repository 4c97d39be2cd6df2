import Verif.Examples

/-!
# C01, C02, C04: `zorichInduction()`

`H.abs E s` is the interval exchange transformation given by `top()`, `bottom()` and the lengths; `ι` embeds the lengths
into any ordered ring of points, e.g., the real numbers.
-/

namespace Verif

set_option linter.unusedSectionVars false

variable {σ T ε P : Type} [CommRing T] [LinearOrder T] [IsStrictOrderedRing T] [CommRing P] [LinearOrder P]
  [IsStrictOrderedRing P] {O : LengthsOps σ T} {d : ℕ} {c : T →+ (Fin d → ℚ)}

/-- **C01** `zorichInduction()` on a valid IET returns, and the resulting IET is the first return map of the original one
to a right hand sub-interval `[δ, L)`. -/
theorem C01_zorich_first_return (H : LawfulLengths O c ε) {E : IET T} {s : σ} (h : H.Ok E s)
    {ι : T →+ P} (hι : StrictMono ι) :
    ∃ r E' s' δ, E.zorichInduction O s = .ok (r, E', s') ∧
      IsReturnMap ((H.abs E s).map ι) δ ((H.abs E' s').map ι) ∧ 0 < ((H.abs E' s').map ι).total := by
  obtain ⟨r, E', s', h1, h2⟩ := zorichInduction_spec H E s h
  obtain ⟨δ, hδ⟩ := Steps.fwd (h.valid.map hι) (h2.run.steps.map hι)
  exact ⟨r, E', s', δ, h1, hδ.isReturnMap, hδ.valid'.total_pos⟩

/-- The IET with lengths 50, 5, 3, 7 satisfies the hypothesis. -/
example : ∃ r E' s' δ, Examples.intIET.zorichInduction (SLengths.ops intArith) Examples.intState = .ok (r, E', s') ∧
    IsReturnMap ((Examples.hInt.abs Examples.intIET Examples.intState).map (Int.castAddHom ℚ)) δ
      ((Examples.hInt.abs E' s').map (Int.castAddHom ℚ)) ∧ 0 < ((Examples.hInt.abs E' s').map (Int.castAddHom ℚ)).total :=
  C01_zorich_first_return Examples.hInt Examples.int_ok Int.cast_strictMono

/-- **C02** `zorichInduction()` is a maximal run of elementary steps. -/
theorem C02_zorich_maximal_run (H : LawfulLengths O c ε) {E : IET T} {s : σ} (h : H.Ok E s) :
    ∃ r E' s', E.zorichInduction O s = .ok (r, E', s') ∧
      Relation.ReflTransGen RauzyTop (H.abs E s) (H.abs E' s') ∧ ¬ ∃ B, RauzyTop (H.abs E' s') B := by
  obtain ⟨r, E', s', h1, h2⟩ := zorichInduction_spec H E s h
  refine ⟨r, E', s', h1, h2.run, ?_⟩
  rintro ⟨B, hB⟩
  have hf := h2.final
  generalize hA : H.abs E' s' = A at hB
  obtain ⟨a, b, t, l₁, l₂, len, hlt⟩ := hB
  have e1 : E'.top = a :: t := congrArg AIET.top hA
  have e2 : E'.bottom = b :: (l₁ ++ a :: l₂) := congrArg AIET.bottom hA
  have e3 : H.len s' = len := congrArg AIET.len hA
  have := hf a b (by simp [e1]) (by simp [e2])
  rw [e3] at this
  exact absurd hlt (not_lt.mpr this)

/-- Elementary steps are deterministic on valid IETs, so a maximal run is unique: **C02** determines the result. -/
theorem C02_step_unique {A B C : AIET T} (hA : A.Valid) (h : RauzyTop A B) (h' : RauzyTop A C) : B = C := by
  obtain ⟨a, b, t, l₁, l₂, len, hlt⟩ := h
  have hs := hA.split
  generalize hX : (⟨a :: t, b :: (l₁ ++ a :: l₂), len⟩ : AIET T) = X at h'
  obtain ⟨a', b', t', l₁', l₂', len', hlt'⟩ := h'
  simp only [AIET.mk.injEq, List.cons.injEq] at hX
  obtain ⟨⟨rfl, rfl⟩, ⟨rfl, e⟩, rfl⟩ := hX
  have hm : a ∉ l₁ := hs.a_l₁
  have hl : l₁ = l₁' ∧ l₂ = l₂' := by
    have hnd := hA.nodup_bottom
    simp only at hnd
    have hm' : a ∉ l₁' := by
      rw [e, List.nodup_cons, List.nodup_append] at hnd
      intro h
      exact hnd.2.2.2 a h a (by simp) rfl
    have h1 : ∀ (l l' : List Label), a ∉ l → a ∉ l' → l ++ a :: l₂ = l' ++ a :: l₂' → l = l' ∧ l₂ = l₂' := by
      intro l
      induction l with
      | nil =>
        intro l' _ h2 h3
        cases l' with
        | nil => simpa using h3
        | cons x l' => simp at h3; exact absurd (by simp [h3.1]) h2
      | cons x l ih =>
        intro l' h1 h2 h3
        cases l' with
        | nil => simp at h3; exact absurd (by simp [h3.1]) h1
        | cons y l' =>
          simp at h1 h2 h3
          obtain ⟨q1, q2⟩ := ih l' h1.2 h2.2 h3.2
          exact ⟨by rw [h3.1, q1], q2⟩
    exact h1 _ _ hm hm' e
  rw [hl.1, hl.2]

/-- The code makes three full twists and no further step: `50 - 3 * (7 + 3 + 5) = 5` and then `5 ≤ 7`. -/
example : (Examples.intIET.zorichInduction (SLengths.ops intArith) Examples.intState).toOption.map
    (fun x => (x.1, x.2.1.bottom, x.2.2.lengths)) = some (false, [3, 2, 1, 0], [5, 5, 3, 7]) := by decide

example : ∃ r E' s', Examples.intIET.zorichInduction (SLengths.ops intArith) Examples.intState = .ok (r, E', s') ∧
    Relation.ReflTransGen RauzyTop (Examples.hInt.abs Examples.intIET Examples.intState) (Examples.hInt.abs E' s') ∧
      ¬ ∃ B, RauzyTop (Examples.hInt.abs E' s') B :=
  C02_zorich_maximal_run Examples.hInt Examples.int_ok

/-- **C04** The return value says whether the first intervals have the same length afterwards; if it is `false` then the
first top interval is strictly shorter. -/
theorem C04_zorich_return (H : LawfulLengths O c ε) {E : IET T} {s : σ} (h : H.Ok E s) :
    ∃ r E' s' a b, E.zorichInduction O s = .ok (r, E', s') ∧ E'.top.head? = some a ∧ E'.bottom.head? = some b ∧
      (r = true ↔ H.len s' a = H.len s' b) ∧ (r = false ↔ H.len s' a < H.len s' b) ∧
      (E.top.head? = E.bottom.head? → r = true ∧ E' = E ∧ s' = s) := by
  obtain ⟨r, E', s', h1, h2⟩ := zorichInduction_spec H E s h
  obtain ⟨a, b, ha, hb⟩ := h2.ok.valid.heads
  have h3 := h2.ret a b ha hb
  have h4 := h2.final a b ha hb
  refine ⟨r, E', s', a, b, h1, ha, hb, h3, ?_, ?_⟩
  · rw [lt_iff_le_and_ne, ← Bool.not_eq_true]
    constructor
    · intro hr; exact ⟨h4, fun he => hr (h3.mpr he)⟩
    · intro hr he; exact hr.2 (h3.mp he)
  · intro he
    obtain ⟨rfl, rfl⟩ := h2.same he
    refine ⟨h3.mpr ?_, rfl, rfl⟩
    have ha : E'.top.head? = some a := ha
    have hb : E'.bottom.head? = some b := hb
    rw [ha, hb] at he
    simp at he
    rw [he]

example : ∃ r E' s' a b, Examples.q2IET.zorichInduction (SLengths.ops Examples.q2Arith) Examples.q2State = .ok (r, E', s') ∧
    E'.top.head? = some a ∧ E'.bottom.head? = some b ∧
      (r = true ↔ Examples.hQ2.len s' a = Examples.hQ2.len s' b) ∧ (r = false ↔ Examples.hQ2.len s' a < Examples.hQ2.len s' b) ∧
      (Examples.q2IET.top.head? = Examples.q2IET.bottom.head? → r = true ∧ E' = Examples.q2IET ∧ s' = Examples.q2State) :=
  C04_zorich_return Examples.hQ2 Examples.q2_ok

end Verif
