import Verif.Proofs.Zorich
import Verif.Model.Connections

/-!
# `LengthsWithConnections` satisfies the contract of `Lengths`
-/

namespace Verif

set_option linter.unusedSectionVars false

variable {σ T ε : Type} [CommRing T] [LinearOrder T] [IsStrictOrderedRing T] {O : LengthsOps σ T}
  {d : ℕ} {c : T →+ (Fin d → ℚ)}

@[simp] theorem LWC.splice_keys (b : Bool) (x y : Label) (m : ConnMap) : (LWC.splice b x y m).keys = m.keys := by
  unfold LWC.splice; split <;> rfl

theorem LWC.subtractConns_ok {comps : List Ctx} {a b : Label} {m : ConnMap} (ha : a ∈ m.keys) (hb : b ∈ m.keys) (hab : a ≠ b) :
    LWC.subtractConns comps a b m = .ok (LWC.splice (LWC.minuendOnTop comps a) a b m) := by
  simp only [LWC.subtractConns, ConnMap.at', bind, Except.bind, pure, Except.pure, if_pos ha, if_pos hb, if_neg hab]

/-- The contract of `LengthsWithConnections` around an implementation that satisfies the contract.  The connections are the
additional data. -/
def LWC.lawful (H : LawfulLengths O c ε) : LawfulLengths (LWC.ops O) c (List Ctx × ConnMap × ε) where
  inv s := H.inv s.inner ∧ H.stack s.inner = s.stack ∧ ∀ a, H.dom s.inner a → 0 ≤ H.len s.inner a
  dom s a := H.dom s.inner a ∧ a ∈ s.conns.keys
  len s := H.len s.inner
  stack s := s.stack
  ext s := (s.others, s.conns, H.ext s.inner)
  mv ctx a b e := (e.1, LWC.splice (LWC.minuendOnTop (ctx :: e.1) a) a b e.2.1, H.mv ctx a b e.2.2)
  push_spec := by
    rintro ⟨s, st, m, o⟩ l ⟨h1, h2, h3⟩ hd hl
    simp only at h1 h2 h3 hd hl
    obtain ⟨s', g1, g2, g3, g4, g5, g6⟩ := H.push_spec s l h1 hd.1 (by rw [h2]; exact hl)
    refine ⟨⟨s', st ++ [l], m, o⟩, ?_, ⟨g2, by simp only; rw [g5, h2], by simp only; rw [g3, g4]; exact h3⟩, by simp only; rw [g3], g4, rfl,
      by simp only; rw [g6]⟩
    simp only [LWC.ops, LWC.push, assertM, hl, not_false_eq_true, decide_true, if_true, bind, Except.bind, pure, Except.pure, g1]
  pop_spec := by
    rintro ⟨s, st, m, o⟩ st' l ⟨h1, h2, h3⟩ hs
    simp only at h1 h2 h3 hs
    subst hs
    obtain ⟨s', g1, g2, g3, g4, g5, g6⟩ := H.pop_spec s st' l h1 h2
    refine ⟨⟨s', st', m, o⟩, ?_, ⟨g2, by simp only; rw [g5], by simp only; rw [g3, g4]; exact h3⟩, by simp only; rw [g3], g4, rfl,
      by simp only; rw [g6]⟩
    simp [LWC.ops, LWC.pop, assertM, bind, Except.bind, pure, Except.pure, g1]
  cmp_spec := by
    rintro ⟨s, st, m, o⟩ a ⟨h1, h2, h3⟩ ha hs
    simp only at h1 h2 h3 ha hs ⊢
    have := H.cmp_spec s a h1 ha.1 (by rw [h2]; exact fun x hx => (hs x hx).1)
    rw [h2] at this; exact this
  cmp2_spec := by
    rintro ⟨s, st, m, o⟩ a b ⟨h1, h2, h3⟩ ha hb
    exact H.cmp2_spec s a b h1 ha.1 hb.1
  get_spec := by
    rintro ⟨s, st, m, o⟩ a ⟨h1, h2, h3⟩ ha
    exact H.get_spec s a h1 ha.1
  coefficients_spec := by
    rintro ⟨s, st, m, o⟩ l ⟨h1, h2, h3⟩ hl
    exact H.coefficients_spec s l h1 (fun x hx => (hl x hx).1)
  subtract_spec := by
    rintro ctx ⟨s, st, m, o⟩ a ⟨h1, h2, h3⟩ ha hs has hlt
    simp only at h1 h2 h3 ha hs has hlt ⊢
    cases st with
    | nil => exact ⟨⟨s, [], m, o⟩, rfl, ⟨h1, h2, h3⟩, rfl, by simp only [sumLen, shorten_zero], rfl, rfl⟩
    | cons b st =>
      have hb := hs b (by simp)
      have hab : a ≠ b := by rintro rfl; simp at has
      obtain ⟨s', g1, g2, g3, g4, g5, g6⟩ := H.subtract_spec ctx s a h1 ha.1 (by rw [h2]; exact fun x hx => (hs x hx).1)
        (by rw [h2]; exact has) (by rw [h2]; exact hlt)
      rw [h2] at g4 g6
      refine ⟨⟨s', [], LWC.splice (LWC.minuendOnTop (ctx :: o) a) a b m, o⟩, ?_, ⟨g2, g5, ?_⟩, by simp only [g3, LWC.splice_keys], g4, rfl,
        by simp only [g6]⟩
      · simp only [LWC.ops, LWC.subtract, bind, Except.bind, pure, Except.pure, g1, LWC.subtractConns_ok ha.2 hb.2 hab]
      · simp only; rw [g3, g4]
        intro x hx
        unfold shorten
        split
        · exact (sub_pos.mpr hlt).le
        · exact h3 x hx
  subtractRepeated_spec := by
    rintro ctx ⟨s, st, m, o⟩ a ⟨h1, h2, h3⟩ ha hs has hpos hlt hne
    simp only at h1 h2 h3 ha hs has hpos hlt hne ⊢
    cases st with
    | nil => exact absurd rfl hne
    | cons b st =>
      have hb := hs b (by simp)
      have hab : a ≠ b := by rintro rfl; simp at has
      obtain ⟨stop, s', k, pre, l, post, g1, g2, g3, g4, g5, g6, g7, g8, g9, g10, g11⟩ :=
        H.subtractRepeated_spec ctx s a h1 ha.1 (by rw [h2]; exact fun x hx => (hs x hx).1)
        (by rw [h2]; exact has) (by rw [h2]; exact hpos) (by rw [h2]; exact hlt) (by rw [h2]; exact hne)
      rw [h2] at g4 g6 g10 g11
      refine ⟨stop, ⟨s', [], LWC.splice (LWC.minuendOnTop (ctx :: o) a) a b m, o⟩, k, pre, l, post, ?_, ⟨g2, g9, ?_⟩,
        by simp only [g3, LWC.splice_keys], g4, g5, g6, g7, g8, rfl, g10, by simp only [g11]⟩
      · simp only [LWC.ops, LWC.subtractRepeated, bind, Except.bind, pure, Except.pure, g1, LWC.subtractConns_ok ha.2 hb.2 hab]
      · simp only; rw [g3]
        intro x hx
        by_cases hxa : x = a
        · subst hxa; exact g7.le
        · rw [g6]; simp only [shorten, if_neg hxa]; exact h3 x hx
  forget_spec := by
    rintro ⟨s, st, m, o⟩ ⟨h1, h2, h3⟩ _
    obtain ⟨f, g1, g2, g3, g4⟩ := H.forget_spec s h1 h3
    exact ⟨f, g1, g2, g3, fun a ha => g4 a ha.1⟩

end Verif
