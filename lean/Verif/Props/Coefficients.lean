import Verif.Proofs.FieldCoefficients
import Verif.Props.Basis
import Verif.Model.Arithmetic
import Mathlib.NumberTheory.Real.Irrational

/-!
# C65: coefficients of rational numbers and of elements of number fields and of modules are coordinates over a common basis
-/

namespace Verif

set_option linter.unusedSectionVars false

section functors

variable {T : Type} [Field T] [CharZero T] {F G : Type} [DecidableEq F] [DecidableEq G]

theorem areCoordinates_one {α : Type} (f : α → ℚ) (l : List α) : AreCoordinates (l.map f) (l.map (fun x => [f x])) := by
  refine ⟨[1], ?_, ?_⟩
  · intro q hq h r hr
    obtain ⟨x, rfl⟩ := List.length_eq_one_iff.1 (hq.trans (by simp))
    rw [combine_cons, combine_nil_left, mul_one, add_zero] at h
    rw [List.mem_singleton.mp hr]
    exact_mod_cast h
  · rw [List.forall₂_map_left_iff, List.forall₂_map_right_iff, List.forall₂_same]
    intro x _
    refine ⟨rfl, ?_⟩
    rw [combine_cons, combine_nil_left, mul_one, add_zero]
    simp

/-- **C65.** For machine integers, `mpz_class` and `mpq_class`, coefficients can always be computed; they are coordinates over a common
basis of the rational numbers. -/
theorem C65_rational :
    (∀ l : List ℤ, ∃ vs, intCoefficients l = .ok vs ∧ AreCoordinates (l.map (fun x : ℤ => (x : ℚ))) vs) ∧
    (∀ l : List ℤ, ∃ vs, mpzCoefficients l = .ok vs ∧ AreCoordinates (l.map (fun x : ℤ => (x : ℚ))) vs) ∧
    (∀ l : List ℚ, ∃ vs, mpqCoefficients l = .ok vs ∧ AreCoordinates l vs) :=
  ⟨fun l => ⟨_, rfl, areCoordinates_one _ l⟩, fun l => ⟨_, rfl, areCoordinates_one _ l⟩,
    fun l => ⟨_, rfl, by simpa using areCoordinates_one id l⟩⟩

/-- **C65.** What `Coefficients<renf_elem_class>` returns are the coordinates of the elements over a common basis. -/
theorem C65_renf (K : F → NField T) {l : List (RenfElem K)} {vs : List (List ℚ)} (h : renfCoefficients K l = .ok vs) :
    AreCoordinates (l.map RenfElem.value) vs := by
  obtain ⟨b, g, h1, h2, h3⟩ := renfCoefficients_spec K h
  refine ⟨b, h1, ?_⟩
  rw [h2, List.forall₂_map_left_iff, List.forall₂_map_right_iff, List.forall₂_same]
  exact h3

/-- **C65.** When `Coefficients<renf_elem_class>` returns: all the irrational elements have to live in the same field, and this has to be the field of
the first element unless that is the field of rational numbers. -/
theorem C65_renf_returns (K : F → NField T) (x₀ : RenfElem K) (l : List (RenfElem K)) :
    (∃ vs, renfCoefficients K (x₀ :: l) = .ok vs) ↔
      ∃ p, ((K x₀.parent).degree = 1 ∨ p = x₀.parent) ∧ ∀ x ∈ x₀ :: l, (∃ r : ℚ, x.value = r) ∨ x.parent = p := by
  constructor
  · rintro ⟨vs, h⟩
    simp only [renfCoefficients, bind, Except.bind] at h
    cases hp : RenfElem.common K x₀.parent (x₀ :: l) with
    | error e => rw [hp] at h; cases h
    | ok p =>
      obtain ⟨h1, h2⟩ := RenfElem.common_spec hp
      exact ⟨p, h1, fun x hx => (h2 x hx).imp_left (fun h => (x.isRational_iff).1 h)⟩
  · rintro ⟨p, h1, h2⟩
    exact renfCoefficients_total K h1 (fun x hx => (h2 x hx).imp_left (fun h => (x.isRational_iff).2 h))

/-- **C65.** Otherwise `Coefficients<renf_elem_class>` throws a logic error. -/
theorem C65_renf_throws (K : F → NField T) (l : List (RenfElem K)) : (∃ vs, renfCoefficients K l = .ok vs) ∨ renfCoefficients K l = .error .logicError := by
  cases h : renfCoefficients K l with
  | ok vs => exact .inl ⟨vs, rfl⟩
  | error e => rw [renfCoefficients_error K h]; exact .inr rfl

/-- **C65.** What `Coefficients<exactreal::Element<Ring>>` returns are the coordinates of the elements over a common basis.  (It never throws.)  The
products of generators `g` and of the basis `β` of the ring must not satisfy rational relations. -/
theorem C65_element {e : ℕ} (g : G → T) {β : List T} (hβ : β.length = e)
    (hg : ∀ m : List G, m.Nodup → Independent (m.flatMap (fun a => β.map (· * g a)))) (l : List (ModuleElem G e)) :
    ∃ vs, elementCoefficients l = .ok vs ∧ AreCoordinates (l.map (ModuleElem.value g β)) vs := by
  obtain ⟨parent, v, h1, h2, h3⟩ := elementCoefficients_spec g hβ l
  refine ⟨_, h2, _, hg parent h1, ?_⟩
  rw [List.forall₂_map_left_iff, List.forall₂_map_right_iff, List.forall₂_same]
  exact h3

end functors

/-! ## Lengths -/

section lengths

variable {σ T ε : Type} [Field T] [LinearOrder T] [IsStrictOrderedRing T] {O : LengthsOps σ T} {d : ℕ} {c : T →+ (Fin d → ℚ)}
  {F G : Type} [DecidableEq F] [DecidableEq G]

theorem coordinates_of {H : LawfulLengths O c ε} {s : σ} {l : List Label} {b : List T} (hb : Independent b) {v : Label → List ℚ}
    (hv : ∀ a ∈ l, (v a).length = b.length ∧ H.len s a = combine (v a) b) :
    ∃ (d' : ℕ) (w : Label → Fin d' → ℚ), l.map v = l.map (fun x => List.ofFn (w x)) ∧
      ∀ n : Label → ℤ, (l.map (fun x => n x • w x)).sum = 0 ↔ (l.map (fun x => n x • H.len s x)).sum = 0 := by
  have e : ∀ a ∈ l, List.ofFn (fun i : Fin b.length => (v a).getD i 0) = v a := by
    intro a ha
    have := (hv a ha).1
    apply List.ext_getElem
    · simp [this]
    · intro i h1 h2
      simp at h1 ⊢
      rw [List.getElem?_eq_getElem h2]
      rfl
  refine ⟨b.length, fun a i => (v a).getD i 0, ?_, ?_⟩
  · exact List.map_congr_left (fun a ha => (e a ha).symm)
  · intro n
    rw [hb.relations, List.map_congr_left (g := fun x => n x • H.len s x) (fun a ha => by rw [e a ha, (hv a ha).2])]

/-- **C65.** Lengths with values in number fields: if all the irrational lengths live in the same field, and the rational ones in this field or in
the rational numbers, then `coefficients()` returns coordinates as required for C63.  -/
theorem C65_renf_lengths (H : LawfulLengths O c ε) (K : F → NField T) (elem : σ → Label → RenfElem K)
    (hv : ∀ s a, H.dom s a → (elem s a).value = H.len s a)
    (hK : ∀ s, ∃ p, ∀ a, H.dom s a → (K (elem s a).parent).degree = 1 ∨ (elem s a).parent = p) :
    H.Coordinates (fun l s => renfCoefficients K (l.map (elem s))) := by
  intro s l hi hd _
  obtain ⟨p, hp⟩ := hK s
  have hr : ∀ x : RenfElem K, (K x.parent).degree = 1 → x.isRational = true := fun x hx => by
    by_contra hn
    exact RenfElem.degree_ne_one hn hx
  have ht : ∃ vs, renfCoefficients K (l.map (elem s)) = .ok vs := by
    cases l with
    | nil => exact ⟨[], rfl⟩
    | cons a l =>
      rw [List.map_cons]
      refine renfCoefficients_total K (q := p) ?_ ?_
      · exact (hp a (hd a List.mem_cons_self)).imp_right Eq.symm
      · rw [← List.map_cons]
        simp only [List.mem_map]
        rintro _ ⟨x, hx, rfl⟩
        exact (hp x (hd x hx)).imp_left (hr _)
  obtain ⟨vs, hvs⟩ := ht
  obtain ⟨b, g, h1, h2, h3⟩ := renfCoefficients_spec K hvs
  obtain ⟨d', w, h4, h5⟩ := coordinates_of (H := H) (s := s) (l := l) h1 (v := fun a => g (elem s a)) (fun a ha => by
    have := h3 _ (List.mem_map_of_mem ha)
    rw [hv s a (hd a ha)] at this
    exact this)
  refine ⟨d', w, ?_, h5⟩
  simp only
  rw [hvs, h2, List.map_map, ← h4]
  rfl

/-- **C65.** Lengths with values in modules: `coefficients()` returns coordinates as required for C63. -/
theorem C65_element_lengths (H : LawfulLengths O c ε) {e : ℕ} (g : G → T) {β : List T} (hβ : β.length = e)
    (hg : ∀ m : List G, m.Nodup → Independent (m.flatMap (fun a => β.map (· * g a)))) (elem : σ → Label → ModuleElem G e)
    (hv : ∀ s a, H.dom s a → (elem s a).value g β = H.len s a) : H.Coordinates (fun l s => elementCoefficients (l.map (elem s))) := by
  intro s l hi hd _
  obtain ⟨parent, v, h1, h2, h3⟩ := elementCoefficients_spec g hβ (l.map (elem s))
  obtain ⟨d', w, h4, h5⟩ := coordinates_of (H := H) (s := s) (l := l) (hg parent h1) (v := fun a => v (elem s a)) (fun a ha => by
    have := h3 _ (List.mem_map_of_mem ha)
    rw [hv s a (hd a ha)] at this
    exact this)
  refine ⟨d', w, ?_, h5⟩
  simp only
  rw [h2, List.map_map, ← h4]
  rfl

end lengths

/-! ## Examples and a finding -/

namespace Examples

/-- The field of rational numbers. -/
def rationals (T : Type) [Field T] [CharZero T] : NField T where
  degree := 1
  gen := 0
  pos := Nat.one_pos
  independent q hq h := by
    obtain ⟨r, rfl⟩ := List.length_eq_one_iff.1 (hq.trans (by simp))
    simp only [List.range_one, List.map_cons, List.map_nil, pow_zero] at h
    rw [combine_cons, combine_nil_left, mul_one, add_zero] at h
    simpa using h

/-- A real quadratic field. -/
def quadratic (x : ℝ) (hx : Irrational x) : NField ℝ where
  degree := 2
  gen := x
  pos := Nat.two_pos
  independent q hq h := by
    obtain ⟨r, t, rfl⟩ := List.length_eq_two.1 (hq.trans (by simp))
    simp only [show List.range 2 = [0, 1] from rfl, List.map_cons, List.map_nil, pow_zero, pow_one] at h
    rw [combine_cons, combine_cons, combine_nil_left, mul_one, add_zero] at h
    by_cases ht : t = 0
    · subst ht
      simp only [Rat.cast_zero, zero_mul, add_zero, Rat.cast_eq_zero] at h
      simp [h]
    · exfalso
      apply hx
      refine ⟨-r / t, ?_⟩
      have : (t : ℝ) ≠ 0 := Rat.cast_ne_zero.2 ht
      push_cast
      rw [div_eq_iff this]
      linarith

/-- The field generated by the square root of 3 contains no square root of 2, the fields are different. -/
noncomputable def fields : Fin 3 → NField ℝ
  | 0 => rationals ℝ
  | 1 => quadratic (Real.sqrt 2) irrational_sqrt_two
  | 2 => quadratic (Real.sqrt 3) (Nat.Prime.irrational_sqrt (p := 3) Nat.prime_three)

/-- The number 1 in the rational numbers. -/
noncomputable def oneInQ : RenfElem fields := ⟨0, [1], 1, rfl, by decide⟩
/-- The square root of 2, divided by 3. -/
noncomputable def rootTwo : RenfElem fields := ⟨1, [0, 1], 3, rfl, by decide⟩
/-- The number 1 in the field generated by the square root of 3. -/
noncomputable def oneInQ3 : RenfElem fields := ⟨2, [1, 0], 1, rfl, by decide⟩

/-- Coefficients of elements with three different parents. -/
example : ∃ vs, renfCoefficients fields [oneInQ, rootTwo, oneInQ3] = .ok vs ∧
    AreCoordinates [oneInQ.value, rootTwo.value, oneInQ3.value] vs := by
  obtain ⟨vs, h⟩ := (C65_renf_returns fields oneInQ [rootTwo, oneInQ3]).2 ⟨1, .inl rfl, by
    simp only [List.mem_cons, List.not_mem_nil, or_false, forall_eq_or_imp, forall_eq]
    exact ⟨.inl ((oneInQ.isRational_iff).1 rfl), .inr rfl, .inl ((oneInQ3.isRational_iff).1 rfl)⟩⟩
  exact ⟨vs, h, C65_renf fields h⟩

end Examples

open Examples in
/-- **C65.** The order of elements matters: the coefficients of `√2/3` and `1` can be computed, but when asking for the coefficients of `1` and `√2/3`,
where `1` is an element of the field generated by `√3`, an exception is thrown although both elements have coordinates over a common basis. -/
theorem C65_order : (∃ vs, renfCoefficients fields [rootTwo, oneInQ3] = .ok vs) ∧ renfCoefficients fields [oneInQ3, rootTwo] = .error .logicError := by
  refine ⟨(C65_renf_returns fields rootTwo [oneInQ3]).2 ⟨1, .inr rfl, ?_⟩, rfl⟩
  simp only [List.mem_cons, List.not_mem_nil, or_false, forall_eq_or_imp, forall_eq]
  exact ⟨.inr rfl, .inl ((oneInQ3.isRational_iff).1 rfl)⟩

namespace Examples

/-- Lengths that are rational numbers, as elements of one of two copies of the field of rational numbers. -/
example : hRat.Coordinates (fun l s => renfCoefficients (fun _ : Bool => rationals ℚ)
    (l.map (fun a => ⟨decide (a = 0), [(s.lengths.getD a 0).num], (s.lengths.getD a 0).den, rfl, by simp⟩))) := by
  refine C65_renf_lengths hRat _ _ ?_ (fun s => ⟨true, fun a _ => .inl rfl⟩)
  intro s a _
  show combine [((s.lengths.getD a 0).num : ℚ) / ((s.lengths.getD a 0).den : ℤ)] [(0 : ℚ) ^ 0] = s.lengths.getD a 0
  rw [combine_cons, combine_nil_left]
  simp [Rat.num_div_den]

/-- Multiples of a single generator. -/
example (l : List (ModuleElem Unit 1)) : ∃ vs, elementCoefficients l = .ok vs ∧ AreCoordinates (l.map (ModuleElem.value (fun _ => (2 : ℚ)) [1])) vs := by
  refine C65_element (fun _ => (2 : ℚ)) (β := [1]) rfl ?_ l
  intro m hm q hq h
  have hm' : m = [] ∨ m = [()] := by
    match m, hm with
    | [], _ => exact .inl rfl
    | [()], _ => exact .inr rfl
    | () :: () :: _, hm => exact absurd hm (by simp)
  rcases hm' with rfl | rfl
  · rw [List.length_eq_zero_iff.1 (hq.trans rfl)]; simp
  · obtain ⟨r, rfl⟩ := List.length_eq_one_iff.1 (hq.trans rfl)
    simp only [List.flatMap_cons, List.flatMap_nil, List.append_nil, List.map_cons, List.map_nil] at h
    rw [combine_cons, combine_nil_left] at h
    simpa using h

end Examples

end Verif
