import Verif.Model.Machine
import Verif.Proofs.Sample
import Verif.Proofs.Arithmetic
import Verif.Proofs.Rounds
import Verif.Proofs.Pointer

/-!
# Machine integers satisfy the contract as long as the total fits
-/

namespace Verif

set_option linter.unusedSectionVars false

theorem checked_ok {max x : ℤ} (h0 : 0 ≤ x) (h1 : x ≤ max) : checked max x = .ok x := by
  rw [checked, if_pos ⟨by omega, h1⟩]

namespace MLengths

theorem sumLen_ge {f : Label → ℤ} {l : List Label} (h : ∀ x ∈ l, 0 ≤ f x) : 0 ≤ sumLen f l := by
  induction l with
  | nil => simp
  | cons a l ih =>
    rw [sumLen_cons]
    have := h a (by simp)
    have := ih (fun x hx => h x (by simp [hx]))
    omega

/-- Lengths that are not negative and whose total is at most `max`, no label is on the stack twice. -/
structure Fits (max : ℤ) (s : SLengths ℤ) : Prop where
  nonneg : ∀ x ∈ s.lengths, 0 ≤ x
  total : s.lengths.sum ≤ max
  nodup : s.stack.Nodup

variable {max : ℤ} {s : SLengths ℤ}

theorem Fits.len_nonneg (h : Fits max s) (a : Label) : 0 ≤ s.len a := by
  rw [SLengths.len, List.getD_eq_getElem?_getD]
  cases e : s.lengths[a]? with
  | none => simp
  | some x => exact h.nonneg x (List.mem_of_getElem? e)

theorem sumLen_range (l : List ℤ) : sumLen (fun a => l.getD a 0) (List.range l.length) = l.sum := by
  induction l using List.reverseRecOn with
  | nil => rfl
  | append_singleton l x ih =>
    rw [List.length_append, List.length_singleton, List.range_succ, sumLen_append, List.sum_append, List.sum_singleton,
      sumLen_cons, sumLen_nil, add_zero]
    congr 1
    · rw [← ih]
      apply sumLen_congr
      intro a ha
      simp only [List.mem_range] at ha
      simp [List.getElem?_append_left ha]
    · simp

/-- A sum of different lengths is not more than the total. -/
theorem Fits.sumLen_le (h : Fits max s) {l : List Label} (hn : l.Nodup) (hl : ∀ x ∈ l, x < s.lengths.length) :
    sumLen s.len l ≤ max := by
  have hsub : l.Subperm (List.range s.lengths.length) := hn.subperm (fun x hx => by simpa using hl x hx)
  obtain ⟨l', hp, hs⟩ := hsub
  obtain ⟨r, hr⟩ := hs.exists_perm_append
  have hr := hr.trans (hp.append_right r)
  have h1 : sumLen s.len (List.range s.lengths.length) = sumLen s.len l + sumLen s.len r := by
    rw [← sumLen_append]; exact sumLen_perm _ hr
  have h2 : sumLen s.len (List.range s.lengths.length) = s.lengths.sum := sumLen_range s.lengths
  have h3 : 0 ≤ sumLen s.len r := sumLen_ge (fun x _ => h.len_nonneg x)
  have := h.total
  omega

theorem Fits.len_le (h : Fits max s) {a : Label} (ha : a < s.lengths.length) : s.len a ≤ max := by
  have := h.sumLen_le (l := [a]) (by simp) (by simpa using ha)
  simpa [sumLen_cons, sumLen_nil] using this

theorem foldlM_value (s : SLengths ℤ) : ∀ (l : List Label) (v : ℤ), (∀ x ∈ l, x < s.lengths.length) → 0 ≤ v →
    (∀ x, 0 ≤ s.len x) → v + sumLen s.len l ≤ max →
    l.foldlM (fun v l => do checked max (v + (← s.at' l))) v = (.ok (v + sumLen s.len l) : M ℤ) := by
  intro l
  induction l with
  | nil => intro v _ _ _ _; simp; rfl
  | cons a l ih =>
    intro v h hv hp hm
    rw [sumLen_cons] at hm
    have h1 := hp a
    have h2 : 0 ≤ sumLen s.len l := sumLen_ge (fun x _ => hp x)
    rw [List.foldlM_cons, SLengths.at'_eq (h a (by simp)), ok_bind, checked_ok (by omega) (by omega), ok_bind,
      ih (v + s.len a) (fun x hx => h x (by simp [hx])) (by omega) hp (by omega), sumLen_cons, add_assoc]

theorem value_eq (h : Fits max s) (hst : ∀ x ∈ s.stack, x < s.lengths.length) : value max s = .ok (sumLen s.len s.stack) := by
  have := h.sumLen_le h.nodup hst
  rw [value, foldlM_value s _ _ hst (le_refl _) h.len_nonneg (by omega), zero_add]

theorem cmp_eq (h : Fits max s) (hst : ∀ x ∈ s.stack, x < s.lengths.length) (a : Label) : cmp max a s = SLengths.cmp a s := by
  rw [cmp, SLengths.cmp, value_eq h hst, SLengths.value_eq hst]

theorem subtract_eq (h : Fits max s) (hst : ∀ x ∈ s.stack, x < s.lengths.length) {a : Label} (ha : a < s.lengths.length)
    (hlt : sumLen s.len s.stack < s.len a) : subtract max a s = SLengths.subtract a s := by
  have h1 := h.len_le ha
  have h2 : 0 ≤ sumLen s.len s.stack := sumLen_ge (fun x _ => h.len_nonneg x)
  rw [subtract, SLengths.subtract, value_eq h hst, SLengths.value_eq hst, SLengths.at'_eq ha]
  simp only [ok_bind]
  rw [checked_ok (by omega) (by omega), ok_bind]

theorem subtractRepeatedLoop_eq (a : Label) : ∀ (ls : List Label) (stop : Label) (s : SLengths ℤ),
    a < s.lengths.length → s.len a ≤ max → (∀ x ∈ ls, x < s.lengths.length) → (∀ x, 0 ≤ s.len x) →
    subtractRepeatedLoop max a ls stop s = SLengths.subtractRepeatedLoop a ls stop s := by
  intro ls
  induction ls with
  | nil => intro _ _ _ _ _ _; rfl
  | cons l ls ih =>
    intro stop s ha hm hls hp
    have hl := hls l (by simp)
    have h1 := hp l
    rw [subtractRepeatedLoop, SLengths.subtractRepeatedLoop, SLengths.at'_eq ha, SLengths.at'_eq hl]
    simp only [ok_bind]
    by_cases hle : s.len a ≤ s.len l
    · rw [if_pos hle, if_pos hle]
    · rw [if_neg hle, if_neg hle]
      rw [checked_ok (by omega) (by omega), ok_bind, SLengths.set_eq ha, ok_bind, ok_bind]
      congr 1
      funext _
      congr 1
      funext _
      rw [ih]
      · simpa using ha
      · rw [SLengths.len_set ha, if_pos rfl]; omega
      · intro x hx; simpa using hls x (by simp [hx])
      · intro x
        rw [SLengths.len_set ha]
        split
        · omega
        · exact hp x

theorem subtractRepeated_eq (h : Fits max s) (hst : ∀ x ∈ s.stack, x < s.lengths.length) {a : Label} (ha : a < s.lengths.length)
    (has : a ∉ s.stack) (hpos : ∀ x ∈ s.stack, 0 < s.len x) (hlt : sumLen s.len s.stack < s.len a) (hne : s.stack ≠ []) :
    subtractRepeated max a s = SLengths.subtractRepeated intArith a s := by
  have hS : 0 < sumLen s.len s.stack := sumLen_pos hpos hne
  have h1 := h.len_le ha
  obtain ⟨q, hq, hq1, hq2⟩ := intFloorDivision_spec (show 0 ≤ s.len a by omega) hS
  have hq0 : 0 ≤ q := by
    by_contra hcon
    have : q + 1 ≤ 0 := by omega
    nlinarith
  have hqm : q ≤ s.len a := by nlinarith
  have hqv : q * sumLen s.len s.stack ≤ s.len a := hq1
  have hqp : 0 ≤ q * sumLen s.len s.stack := mul_nonneg hq0 hS.le
  have hdiv : machineFloorDivision max (s.len a) (sumLen s.len s.stack) = .ok q := by
    have e : intFloorDivision (s.len a) (sumLen s.len s.stack) = .ok (Int.tdiv (s.len a) (sumLen s.len s.stack)) := by
      rw [intFloorDivision, if_neg (by omega)]
    rw [e] at hq
    cases hq
    rw [machineFloorDivision, if_neg (by omega), checked_ok hq0 (by omega)]
  unfold subtractRepeated SLengths.subtractRepeated
  cases s.stack.getLast? with
  | none => rfl
  | some last =>
    simp only
    rw [SLengths.at'_eq ha, value_eq h hst, SLengths.value_eq hst]
    simp only [ok_bind]
    have hA : intArith.fdiv (s.len a) (sumLen s.len s.stack) = .ok q := hq
    rw [hdiv, hA]
    simp only [ok_bind, Int.cast_id]
    rw [checked_ok hqp (by omega), ok_bind, checked_ok (by omega) (by omega), ok_bind, SLengths.set_eq ha]
    simp only [ok_bind]
    set s₁ : SLengths ℤ := ⟨s.stack, s.lengths.set a (s.len a - q * sumLen s.len s.stack)⟩ with hs₁
    have ha₁ : a < s₁.lengths.length := by simpa [hs₁] using ha
    have hst₁ : ∀ x ∈ s₁.stack, x < s₁.lengths.length := by simpa [hs₁] using hst
    have hl₁ : ∀ x, s₁.len x = if x = a then s.len a - q * sumLen s.len s.stack else s.len x := fun x => SLengths.len_set ha _ x
    have hp₁ : ∀ x, 0 ≤ s₁.len x := by
      intro x
      rw [hl₁]
      split
      · omega
      · exact h.len_nonneg x
    have hsum₁ : sumLen s₁.len s₁.stack = sumLen s.len s.stack := by
      apply sumLen_congr
      intro x hx
      rw [hl₁, if_neg (by rintro rfl; exact has hx)]
    have hv₁ : value max s₁ = .ok (sumLen s.len s.stack) := by
      rw [value, foldlM_value s₁ _ _ hst₁ (le_refl _) hp₁ (by rw [hsum₁]; omega), zero_add, hsum₁]
    have hv₁' : s₁.value = .ok (sumLen s.len s.stack) := by rw [SLengths.value_eq hst₁, hsum₁]
    rw [SLengths.at'_eq ha₁, hv₁, hv₁']
    simp only [ok_bind]
    congr 1
    funext _
    have hla : s₁.len a = s.len a - q * sumLen s.len s.stack := by rw [hl₁, if_pos rfl]
    by_cases h0 : s₁.len a = 0
    · simp only [if_pos h0]
      rw [checked_ok (by omega) (by omega), ok_bind, SLengths.set_eq ha₁, ok_bind, ok_bind]
      apply subtractRepeatedLoop_eq
      · simpa using ha₁
      · rw [SLengths.len_set ha₁, if_pos rfl]; omega
      · intro x hx; simpa using hst₁ x hx
      · intro x
        rw [SLengths.len_set ha₁]
        split
        · omega
        · exact hp₁ x
    · simp only [if_neg h0]
      exact subtractRepeatedLoop_eq a _ _ _ ha₁ (by omega) hst₁ hp₁

/-- Shortening a length keeps that the total fits. -/
theorem Fits.shorten (h : Fits max s) {s' : SLengths ℤ} {a : Label} {x : ℤ} (hlen : s'.lengths.length = s.lengths.length)
    (ha : a < s.lengths.length) (hl : s'.len = shorten s.len a x) (hx : 0 ≤ x) (h0 : 0 ≤ s'.len a) (hst : s'.stack = []) : Fits max s' := by
  have hp : ∀ y, 0 ≤ s'.len y := by
    intro y
    by_cases e : y = a
    · rw [e]; exact h0
    · rw [hl, Verif.shorten, if_neg e]; exact h.len_nonneg y
  have hle : ∀ y, s'.len y ≤ s.len y := by
    intro y
    rw [hl, Verif.shorten]
    split
    · rename_i e; subst e; omega
    · exact le_refl _
  refine ⟨?_, ?_, by rw [hst]; exact List.nodup_nil⟩
  · intro y hy
    obtain ⟨i, hi, rfl⟩ := List.getElem_of_mem hy
    have := hp i
    simpa [SLengths.len, hi] using this
  · have h1 : sumLen s'.len (List.range s'.lengths.length) = s'.lengths.sum := sumLen_range s'.lengths
    have h2 : sumLen s.len (List.range s.lengths.length) = s.lengths.sum := sumLen_range s.lengths
    rw [hlen] at h1
    have h3 : ∀ l : List Label, sumLen s'.len l ≤ sumLen s.len l := by
      intro l
      induction l with
      | nil => simp
      | cons b l ih => rw [sumLen_cons, sumLen_cons]; have := hle b; omega
    have := h3 (List.range s.lengths.length)
    have := h.total
    omega

/-- `sample::Lengths` of a machine integer type satisfies the contract of the interface when the total fits into the type. -/
def lawful (max : ℤ) : LawfulLengths (ops max) intCoef Unit where
  inv := Fits max
  dom s l := l < s.lengths.length
  len s := s.len
  stack s := s.stack
  ext _ := ()
  mv _ _ _ _ := ()
  push_spec s l h _ hl := ⟨s.push l, rfl, ⟨h.nonneg, h.total, by
    simp only [SLengths.push]
    exact List.nodup_append.2 ⟨h.nodup, by simp, by
      intro a ha b hb
      rw [List.mem_singleton] at hb
      subst hb
      rintro rfl
      exact hl ha⟩⟩, rfl, rfl, rfl, rfl⟩
  pop_spec s st l h e := by
    refine ⟨{ s with stack := s.stack.dropLast }, ?_, ⟨h.nonneg, h.total, h.nodup.sublist (List.dropLast_sublist _)⟩, rfl, rfl,
      by simp [e], rfl⟩
    simp [ops, SLengths.pop, e]
  cmp_spec s a h ha hst := by
    show ∃ r, cmp max a s = .ok r ∧ _
    rw [cmp_eq h hst]
    exact (SLengths.lawful intArith_lawful).cmp_spec s a trivial ha hst
  cmp2_spec s a b h ha hb := (SLengths.lawful intArith_lawful).cmp2_spec s a b trivial ha hb
  get_spec s a h ha := (SLengths.lawful intArith_lawful).get_spec s a trivial ha
  coefficients_spec s l h hl := (SLengths.lawful intArith_lawful).coefficients_spec s l trivial hl
  subtract_spec ctx s a h ha hst has hlt := by
    show ∃ s', subtract max a s = .ok s' ∧ _
    rw [subtract_eq h hst ha hlt]
    obtain ⟨s', g1, _, g3, g4, g5, g6⟩ := (SLengths.lawful intArith_lawful).subtract_spec ctx s a trivial ha hst has hlt
    have h2 : 0 ≤ sumLen s.len s.stack := sumLen_ge (fun x _ => h.len_nonneg x)
    have g4' : s'.len = Verif.shorten s.len a (sumLen s.len s.stack) := g4
    refine ⟨s', g1, h.shorten ?_ ha g4' h2 ?_ g5, g3, g4, g5, g6⟩
    · have g3' : (fun l => l < s'.lengths.length) = (fun l => l < s.lengths.length) := g3
      have e1 := congrFun g3' s.lengths.length
      have e2 := congrFun g3' s'.lengths.length
      simp only [lt_self_iff_false, eq_iff_iff, false_iff, iff_false, not_lt] at e1 e2
      omega
    · rw [g4', shorten_eq]; exact (sub_pos.2 hlt).le
  subtractRepeated_spec ctx s a h ha hst has hp hlt hne := by
    show ∃ stop s' k pre l post, subtractRepeated max a s = .ok (stop, s') ∧ _
    rw [subtractRepeated_eq h hst ha has hp hlt hne]
    obtain ⟨stop, s', k, pre, l, post, g1, _, g3, g4, g5, g6, g7, g8, g9, g10, g11⟩ :=
      (SLengths.lawful intArith_lawful).subtractRepeated_spec ctx s a trivial ha hst has hp hlt hne
    have g6' : s'.len = Verif.shorten s.len a ((k : ℕ) * sumLen s.len s.stack + sumLen s.len pre) := g6
    refine ⟨stop, s', k, pre, l, post, g1, h.shorten ?_ ha g6' ?_ (show 0 < s'.len a from g7).le g9, g3, g4, g5, g6, g7, g8, g9, g10, g11⟩
    · have g3' : (fun l => l < s'.lengths.length) = (fun l => l < s.lengths.length) := g3
      have e1 := congrFun g3' s.lengths.length
      have e2 := congrFun g3' s'.lengths.length
      simp only [lt_self_iff_false, eq_iff_iff, false_iff, iff_false, not_lt] at e1 e2
      omega
    · have h2 : 0 ≤ sumLen s.len s.stack := sumLen_ge (fun x _ => h.len_nonneg x)
      have h3 : 0 ≤ sumLen s.len pre := sumLen_ge (fun x _ => h.len_nonneg x)
      positivity
  forget_spec s h hn := (SLengths.lawful intArith_lawful).forget_spec s trivial hn

end MLengths

end Verif
