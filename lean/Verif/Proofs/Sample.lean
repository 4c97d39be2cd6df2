import Verif.Contract
import Verif.Proofs.Rauzy
import Mathlib.Tactic.Linarith
import Mathlib.Algebra.Order.Ring.Cast
import Mathlib.Data.List.GetD

/-!
# `sample::Lengths` satisfies the contract
-/

namespace Verif

set_option linter.unusedSectionVars false

namespace SLengths

variable {T : Type} [CommRing T] [LinearOrder T] [IsStrictOrderedRing T]

/-- The length of a label, zero if it is out of range. -/
def len (s : SLengths T) (l : Label) : T := s.lengths.getD l 0

theorem at'_eq {s : SLengths T} {l : Label} (h : l < s.lengths.length) : s.at' l = .ok (s.len l) := by
  simp [at', len, h]

theorem set_eq {s : SLengths T} {l : Label} (h : l < s.lengths.length) (x : T) :
    s.set l x = .ok ⟨s.stack, s.lengths.set l x⟩ := by
  simp [set, h]

theorem len_set {st : List Label} {ls : List T} {l : Label} (h : l < ls.length) (x : T) (a : Label) :
    len ⟨st, ls.set l x⟩ a = if a = l then x else len ⟨st, ls⟩ a := by
  simp only [len, List.getD_eq_getElem?_getD, List.getElem?_set]
  by_cases ha : a = l
  · subst ha; simp [h]
  · simp [ha, Ne.symm ha]

theorem foldlM_value (s : SLengths T) : ∀ (l : List Label) (v : T), (∀ x ∈ l, x < s.lengths.length) →
    l.foldlM (fun v l => do return v + (← s.at' l)) v = (.ok (v + sumLen s.len l) : M T) := by
  intro l
  induction l with
  | nil => intro v _; simp; rfl
  | cons a l ih =>
    intro v h
    rw [List.foldlM_cons, at'_eq (h a (by simp))]
    simp only [bind, Except.bind, pure, Except.pure]
    have := ih (v + s.len a) (fun x hx => h x (by simp [hx]))
    simp only [bind, Except.bind, pure, Except.pure] at this
    rw [this, sumLen_cons, add_assoc]

theorem value_eq {s : SLengths T} (h : ∀ x ∈ s.stack, x < s.lengths.length) :
    s.value = .ok (sumLen s.len s.stack) := by
  rw [value, foldlM_value s _ _ h, zero_add]

theorem subtractRepeatedLoop_spec (a : Label) : ∀ (ls : List Label) (stop : Label) (s : SLengths T),
    a < s.lengths.length → (∀ x ∈ ls, x < s.lengths.length) → a ∉ ls → (∀ x ∈ ls, 0 < s.len x) →
    0 < s.len a → s.len a ≤ sumLen s.len ls →
    ∃ stop' s' pre l post, subtractRepeatedLoop a ls stop s = .ok (stop', s') ∧
      s'.lengths.length = s.lengths.length ∧ ls = pre ++ l :: post ∧
      s'.len = shorten s.len a (sumLen s.len pre) ∧ 0 < s'.len a ∧ s'.len a ≤ s.len l ∧ s'.stack = [] ∧
      some stop' = if pre = [] then some stop else pre.getLast? := by
  intro ls
  induction ls with
  | nil => intro stop s _ _ _ _ h1 h2; simp at h2; exact absurd h1 (not_lt.mpr h2)
  | cons l ls ih =>
    intro stop s ha hls hals hp h1 h2
    simp only [List.mem_cons, not_or] at hals
    have hl := hls l (by simp)
    simp only [subtractRepeatedLoop, at'_eq ha, at'_eq hl, bind, Except.bind]
    by_cases hle : s.len a ≤ s.len l
    · refine ⟨stop, s.clear, [], l, ls, by simp [hle, pure, Except.pure], rfl, rfl, ?_, h1, hle, rfl, by simp⟩
      simp [shorten_zero]; rfl
    · simp only [hle, if_false, set_eq ha]
      have hle := not_le.mp hle
      have hla : (⟨s.stack, s.lengths.set a (s.len a - s.len l)⟩ : SLengths T).len = shorten s.len a (s.len l) := by
        funext x; rw [len_set ha, shorten]
      have ha' : a < (⟨s.stack, s.lengths.set a (s.len a - s.len l)⟩ : SLengths T).lengths.length := by simpa using ha
      rw [at'_eq ha']
      simp only
      rw [hla, shorten_eq]
      have hpos : 0 < s.len a - s.len l := by linarith
      simp only [assertM, hpos, decide_true, if_true]
      have hc := shorten_congr s.len (s.len l) hals.2
      obtain ⟨stop', s', pre, l', post, g1, g2, g3, g4, g5, g6, g7, g8⟩ :=
        ih l ⟨s.stack, s.lengths.set a (s.len a - s.len l)⟩ ha'
          (fun x hx => by simpa using hls x (by simp [hx])) hals.2
          (fun x hx => by rw [hla, hc x hx]; exact hp x (by simp [hx])) (by rw [hla, shorten_eq]; exact hpos)
          (by rw [hla, shorten_eq, sumLen_congr hc]; rw [sumLen_cons] at h2; linarith)
      refine ⟨stop', s', l :: pre, l', post, g1, by simpa using g2, by rw [g3]; rfl, ?_, g5, ?_, g7, ?_⟩
      · rw [g4, hla, shorten_shorten, sumLen_cons, sumLen_congr (l := pre)]
        intro x hx; exact hc x (by rw [g3]; simp [hx])
      · rw [hla, hc l' (by rw [g3]; simp)] at g6; exact g6
      · rw [g8]
        cases pre with
        | nil => simp
        | cons y ys => simp [List.getLast?_cons_cons]

theorem subtractRepeated_spec {d : ℕ} {c : T →+ (Fin d → ℚ)} {A : Arith T} (hA : A.Lawful c) (a : Label) (s : SLengths T)
    (ha : a < s.lengths.length) (hst : ∀ x ∈ s.stack, x < s.lengths.length) (has : a ∉ s.stack)
    (hp : ∀ x ∈ s.stack, 0 < s.len x) (hlt : sumLen s.len s.stack < s.len a) (hne : s.stack ≠ []) :
    ∃ stop s' k pre l post, subtractRepeated A a s = .ok (stop, s') ∧ s'.lengths.length = s.lengths.length ∧
      s.stack = pre ++ l :: post ∧ 1 ≤ k ∧
      s'.len = shorten s.len a ((k : ℕ) * sumLen s.len s.stack + sumLen s.len pre) ∧
      0 < s'.len a ∧ s'.len a ≤ s.len l ∧ s'.stack = [] ∧
      some stop = (if pre = [] then s.stack.getLast? else pre.getLast?) := by
  have hS : 0 < sumLen s.len s.stack := sumLen_pos hp hne
  obtain ⟨q, hq, hq1, hq2⟩ := hA.fdiv_spec (s.len a) _ (by linarith) hS
  obtain ⟨last, hlast⟩ : ∃ last, s.stack.getLast? = some last := by
    rw [List.getLast?_eq_some_getLast hne]; exact ⟨_, rfl⟩
  -- the number of full subtractions that remain effective
  have key : ∃ (k : ℕ) (y : T), 1 ≤ k ∧ y = s.len a - (k : T) * sumLen s.len s.stack ∧ 0 < y ∧ y ≤ sumLen s.len s.stack ∧
      (if s.len a - (q : T) * sumLen s.len s.stack = 0 then
        s.len a - (q : T) * sumLen s.len s.stack + sumLen s.len s.stack
      else s.len a - (q : T) * sumLen s.len s.stack) = y := by
    have hqpos : (1 : ℤ) ≤ q := by
      by_contra hcon
      have hq0 : q + 1 ≤ 1 := by omega
      have : ((q + 1 : ℤ) : T) ≤ 1 := by exact_mod_cast hq0
      push_cast at this
      nlinarith
    by_cases h0 : s.len a - (q : T) * sumLen s.len s.stack = 0
    · have hq2' : (2 : ℤ) ≤ q := by
        by_contra hcon
        have : q = 1 := by omega
        subst this; push_cast at h0; linarith
      obtain ⟨k, rfl⟩ : ∃ k : ℕ, q = (k : ℤ) + 1 := ⟨(q - 1).toNat, by omega⟩
      refine ⟨k, sumLen s.len s.stack, by omega, ?_, hS, le_refl _, by rw [if_pos h0, h0, zero_add]⟩
      push_cast at h0; linarith
    · obtain ⟨k, rfl⟩ : ∃ k : ℕ, q = (k : ℤ) := ⟨q.toNat, by omega⟩
      refine ⟨k, _, by omega, rfl, ?_, ?_, by rw [if_neg h0]; push_cast; rfl⟩
      · push_cast at h0 hq1
        exact lt_of_le_of_ne (by linarith) (Ne.symm h0)
      · push_cast at hq2; linarith
  obtain ⟨k, y, hk, hy, hy0, hyS, hif⟩ := key
  have hge : 0 ≤ s.len a - (q : T) * sumLen s.len s.stack := by linarith
  have hval := value_eq hst
  set s₁ : SLengths T := ⟨s.stack, s.lengths.set a (s.len a - (q : T) * sumLen s.len s.stack)⟩ with hs₁
  have ha₁ : a < s₁.lengths.length := by simpa [hs₁] using ha
  have hl₁ : s₁.len = shorten s.len a ((q : T) * sumLen s.len s.stack) := by
    funext x; rw [hs₁, len_set ha, shorten]
  have hst₁ : ∀ x ∈ s₁.stack, x < s₁.lengths.length := by simpa [hs₁] using hst
  have hval₁ : s₁.value = .ok (sumLen s.len s.stack) := by
    rw [value_eq hst₁, hl₁]
    congr 1
    exact sumLen_congr (shorten_congr _ _ has)
  set s₂ : SLengths T := ⟨s.stack, s.lengths.set a y⟩ with hs₂
  have ha₂ : a < s₂.lengths.length := by simpa [hs₂] using ha
  have hl₂ : s₂.len = shorten s.len a ((k : T) * sumLen s.len s.stack) := by
    funext x; rw [hs₂, len_set ha, shorten, ← hy]
  have hstep : (if s₁.len a = 0 then s₁.set a (s₁.len a + sumLen s.len s.stack) else (.ok s₁ : M (SLengths T)))
      = .ok s₂ := by
    rw [hl₁, shorten_eq]
    by_cases h0 : s.len a - (q : T) * sumLen s.len s.stack = 0
    · rw [if_pos h0] at hif ⊢
      rw [set_eq ha₁, hif, hs₁, hs₂]; simp
    · rw [if_neg h0] at hif ⊢
      rw [hs₁, hs₂, hif]
  have hc := shorten_congr s.len ((k : T) * sumLen s.len s.stack) has
  obtain ⟨stop', s', pre, l, post, g1, g2, g3, g4, g5, g6, g7, g8⟩ :=
    subtractRepeatedLoop_spec a s.stack last s₂ ha₂ (by simpa [hs₂] using hst) has
      (fun x hx => by rw [hl₂, hc x hx]; exact hp x hx) (by rw [hl₂, shorten_eq, ← hy]; exact hy0)
      (by rw [hl₂, shorten_eq, ← hy, sumLen_congr hc]; exact hyS)
  refine ⟨stop', s', k, pre, l, post, ?_, by simpa [hs₂] using g2, g3, hk, ?_, g5, ?_, g7, ?_⟩
  · simp only [subtractRepeated, hlast, at'_eq ha, bind, Except.bind, hval, hq, set_eq ha, ← hs₁, at'_eq ha₁, hval₁]
    have h3 : decide (0 ≤ s₁.len a) = true := by rw [hl₁, shorten_eq]; simpa using hge
    simp only [assertM, h3, if_true]
    by_cases h0 : s₁.len a = 0
    · rw [if_pos h0] at hstep ⊢
      rw [hstep]; exact g1
    · rw [if_neg h0] at hstep ⊢
      rw [Except.ok.inj hstep]; exact g1
  · rw [g4, hl₂, shorten_shorten]
    congr 2
    exact sumLen_congr fun x hx => hc x (by rw [g3]; simp [hx])
  · rw [hl₂, hc l (by rw [g3]; simp)] at g6; exact g6
  · rw [g8, hlast]

theorem coefficients_spec {d : ℕ} {c : T →+ (Fin d → ℚ)} {A : Arith T} (hA : A.Lawful c) (s : SLengths T)
    (l : List Label) (h : ∀ x ∈ l, x < s.lengths.length) :
    coefficients A l s = .ok (l.map (fun x => List.ofFn (c (s.len x)))) := by
  have : ∀ l : List Label, (∀ x ∈ l, x < s.lengths.length) → l.mapM s.at' = .ok (l.map s.len) := by
    intro l
    induction l with
    | nil => intro _; rfl
    | cons a l ih =>
      intro h
      rw [List.mapM_cons, at'_eq (h a (by simp)), ih (fun x hx => h x (by simp [hx]))]
      rfl
  simp only [coefficients, this l h, bind, Except.bind, hA.coeffs_spec, List.map_map]
  rfl

theorem cmpT_nonneg (x y : T) : 0 ≤ cmpT x y ↔ y ≤ x := by
  unfold cmpT
  by_cases h : x < y
  · simp [h]
  · by_cases h' : x > y
    · simp [h, h', h'.le]
    · simp [h, h', not_lt.mp h]

theorem cmpT_zero (x y : T) : cmpT x y = 0 ↔ x = y := by
  unfold cmpT
  by_cases h : x < y
  · simp [h, h.ne]
  · by_cases h' : x > y
    · simp [h, h', h'.ne']
    · simp [h, h', le_antisymm (not_lt.mp h') (not_lt.mp h)]

/-- `sample::Lengths` satisfies the contract of the interface. -/
def lawful {d : ℕ} {c : T →+ (Fin d → ℚ)} {A : Arith T} (hA : A.Lawful c) :
    LawfulLengths (SLengths.ops A) c Unit where
  inv _ := True
  dom s l := l < s.lengths.length
  len s := s.len
  stack s := s.stack
  ext _ := ()
  mv _ _ _ _ := ()
  push_spec s l _ _ _ := ⟨s.push l, rfl, trivial, rfl, rfl, rfl, rfl⟩
  pop_spec s st l _ h := by
    refine ⟨{ s with stack := s.stack.dropLast }, ?_, trivial, rfl, rfl, by simp [h], rfl⟩
    simp [ops, pop, h]
  cmp_spec s a _ ha hst := by
    refine ⟨cmpT (sumLen s.len s.stack) (s.len a), ?_, cmpT_nonneg _ _⟩
    simp [ops, cmp, value_eq hst, at'_eq ha, bind, Except.bind, pure, Except.pure]
  cmp2_spec s a b _ ha hb := by
    refine ⟨cmpT (s.len a) (s.len b), ?_, cmpT_zero _ _⟩
    simp [ops, cmp2, at'_eq ha, at'_eq hb, bind, Except.bind, pure, Except.pure]
  get_spec s a _ ha := at'_eq ha
  coefficients_spec s l _ h := coefficients_spec hA s l h
  subtract_spec ctx s a _ ha hst has hlt := by
    have hpos : 0 < s.len a - sumLen s.len s.stack := by linarith
    refine ⟨⟨[], s.lengths.set a (s.len a - sumLen s.len s.stack)⟩, ?_, trivial, ?_, ?_, rfl, ?_⟩
    · simp only [ops, subtract, at'_eq ha, value_eq hst, bind, Except.bind, set_eq ha]
      rw [at'_eq (by simpa using ha)]
      simp only [len_set ha, if_true, assertM, hpos, decide_true]
      rfl
    · funext x; simp
    · funext x; rw [len_set ha, shorten]; rfl
    · cases s.stack <;> rfl
  subtractRepeated_spec ctx s a _ ha hst has hp hlt hne := by
    obtain ⟨stop, s', k, pre, l, post, g1, g2, g3, g4, g5, g6, g7, g8, g9⟩ :=
      subtractRepeated_spec hA a s ha hst has hp hlt hne
    exact ⟨stop, s', k, pre, l, post, g1, trivial, by funext x; simp [g2], g3, g4, g5, g6, g7, g8, g9, by
      cases s.stack <;> rfl⟩
  forget_spec s _ h := by
    have hx : ∀ x ∈ s.lengths, 0 ≤ x := by
      intro x hx
      obtain ⟨i, hi, rfl⟩ := List.getElem_of_mem hx
      have := h i hi
      simpa [len, hi] using this
    refine ⟨⟨[], s.lengths⟩, ?_, rfl, hx, ?_⟩
    · simp only [ops, forget, make]
      rw [if_neg]
      simp only [List.any_eq_true, decide_eq_true_eq, not_exists, not_and, not_lt]
      exact hx
    · intro a ha
      simp [len, ha]

end SLengths

end Verif
