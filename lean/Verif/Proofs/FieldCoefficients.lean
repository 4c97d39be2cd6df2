import Verif.Model.FieldCoefficients
import Mathlib.Algebra.BigOperators.Fin
import Mathlib.Data.List.Perm.Basic
import Mathlib.Tactic.Ring
import Mathlib.Algebra.BigOperators.GroupWithZero.Action

/-!
# The coefficients of elements of number fields and modules are coordinates
-/

namespace Verif

set_option linter.unusedSectionVars false

variable {T : Type} [Field T] {F G : Type} [DecidableEq F] [DecidableEq G]

theorem combine_nil_left (b : List T) : combine [] b = 0 := rfl

theorem combine_cons (r : ℚ) (q : List ℚ) (x : T) (b : List T) : combine (r :: q) (x :: b) = (r : T) * x + combine q b := by
  simp [combine]

theorem combine_replicate (n : ℕ) (b : List T) : combine (List.replicate n 0) b = 0 := by
  induction n generalizing b with
  | zero => rfl
  | succ n ih =>
    cases b with
    | nil => simp [combine]
    | cons x b => rw [List.replicate_succ, combine_cons, ih]; simp

theorem combine_zero : ∀ {q : List ℚ}, (∀ r ∈ q, r = 0) → ∀ b : List T, combine q b = 0
  | [], _, _ => rfl
  | r :: q, h, [] => by simp [combine]
  | r :: q, h, x :: b => by
    rw [combine_cons, combine_zero (fun s hs => h s (List.mem_cons_of_mem _ hs)), h r List.mem_cons_self]; simp

theorem combine_append : ∀ {q₁ : List ℚ} {b₁ : List T}, q₁.length = b₁.length → ∀ q₂ b₂, combine (q₁ ++ q₂) (b₁ ++ b₂) = combine q₁ b₁ + combine q₂ b₂
  | [], [], _, q₂, b₂ => by simp [combine]
  | r :: q, x :: b, h, q₂, b₂ => by
    rw [List.cons_append, List.cons_append, combine_cons, combine_cons, combine_append (by simpa using h)]; ring

theorem combine_mul_right (y : T) : ∀ (q : List ℚ) (b : List T), combine q (b.map (· * y)) = combine q b * y
  | [], _ => by simp [combine]
  | _ :: _, [] => by simp [combine]
  | r :: q, x :: b => by
    rw [List.map_cons, combine_cons, combine_cons, combine_mul_right y q b]; ring

/-- Differences of coordinates. -/
def subL (p q : List ℚ) : List ℚ := List.zipWith (· - ·) p q

theorem combine_subL [CharZero T] : ∀ {p q : List ℚ} {b : List T}, p.length = b.length → q.length = b.length → combine (subL p q) b = combine p b - combine q b
  | [], _ :: _, [], _, h => by simp at h
  | _ :: _, [], [], h, _ => by simp at h
  | [], _, _ :: _, h, _ => by simp at h
  | _ :: _, [], _ :: _, _, h => by simp at h
  | [], [], [], _, _ => by simp [combine, subL]
  | r :: p, s :: q, x :: b, h, h' => by
    have ih := combine_subL (p := p) (q := q) (b := b) (by simpa using h) (by simpa using h')
    unfold subL at *
    rw [List.zipWith_cons_cons, combine_cons, combine_cons, combine_cons, ih]; push_cast; ring

namespace RenfElem

variable {K : F → NField T}

theorem coefficients_length (x : RenfElem K) : x.coefficients.length = (K x.parent).powers.length := by
  simp [coefficients, NField.powers, x.num_length]

theorem degree_ne_one {x : RenfElem K} (h : ¬ x.isRational = true) : (K x.parent).degree ≠ 1 := by
  intro h1
  apply h
  have := x.num_length
  rw [h1, List.length_eq_one_iff] at this
  obtain ⟨a, ha⟩ := this
  simp [isRational, ha]

theorem common_spec : ∀ {l : List (RenfElem K)} {p p' : F}, common K p l = .ok p' → ((K p).degree = 1 ∨ p' = p) ∧ ∀ x ∈ l, x.isRational = true ∨ x.parent = p'
  | [], p, p', h => by
    cases h
    exact ⟨.inr rfl, by simp⟩
  | x :: l, p, p', h => by
    unfold common at h
    by_cases h1 : x.isRational = true
    · rw [if_pos h1] at h
      obtain ⟨h2, h3⟩ := common_spec h
      refine ⟨h2, ?_⟩
      simp only [List.mem_cons, forall_eq_or_imp]
      exact ⟨.inl h1, h3⟩
    · rw [if_neg h1] at h
      simp only at h
      by_cases hd : (K p).degree = 1
      · rw [if_pos hd, if_neg (by simp)] at h
        obtain ⟨h2, h3⟩ := common_spec h
        simp only [List.mem_cons, forall_eq_or_imp]
        exact ⟨.inl hd, .inr (h2.resolve_left (degree_ne_one h1)).symm, h3⟩
      · rw [if_neg hd] at h
        by_cases hp : p ≠ x.parent
        · rw [if_pos hp] at h; cases h
        · rw [if_neg hp] at h
          obtain ⟨h2, h3⟩ := common_spec h
          simp only [List.mem_cons, forall_eq_or_imp]
          have h4 := h2.resolve_left hd
          exact ⟨.inr h4, .inr (by rw [h4]; exact (not_not.1 hp).symm), h3⟩

theorem common_error : ∀ {l : List (RenfElem K)} {p : F} {e : Err}, common K p l = .error e → e = .logicError
  | x :: l, p, e, h => by
    unfold common at h
    by_cases h1 : x.isRational = true
    · rw [if_pos h1] at h; exact common_error h
    · rw [if_neg h1] at h
      simp only at h
      by_cases h2 : (if (K p).degree = 1 then x.parent else p) ≠ x.parent
      · rw [if_pos h2] at h; cases h; rfl
      · rw [if_neg h2] at h; exact common_error h

theorem common_total : ∀ {l : List (RenfElem K)} {p q : F}, ((K p).degree = 1 ∨ q = p) → (∀ x ∈ l, x.isRational = true ∨ x.parent = q) → ∃ p', common K p l = .ok p'
  | [], p, _, _, _ => ⟨p, rfl⟩
  | x :: l, p, q, h, hl => by
    simp only [List.mem_cons, forall_eq_or_imp] at hl
    unfold common
    by_cases h1 : x.isRational = true
    · rw [if_pos h1]; exact common_total h hl.2
    · rw [if_neg h1]
      have h2 := hl.1.resolve_left h1
      simp only
      by_cases hd : (K p).degree = 1
      · rw [if_pos hd, if_neg (by simp), h2]; exact common_total (.inr rfl) hl.2
      · have h3 := h.resolve_left hd
        rw [if_neg hd, if_neg (by rw [h2, h3]; simp)]
        exact common_total (.inr h3) hl.2

theorem powers_eq (K : NField T) : K.powers = 1 :: ((List.range (K.degree - 1)).map (fun i => K.gen ^ (i + 1))) := by
  have h := K.pos
  obtain ⟨n, hn⟩ : ∃ n, K.degree = n + 1 := ⟨K.degree - 1, by omega⟩
  unfold NField.powers
  rw [hn, List.range_succ_eq_map, List.map_cons, pow_zero, List.map_map]
  rfl

theorem value_rational {x : RenfElem K} (h : x.isRational = true) : x.value = (((x.num.headD 0 : ℤ) : ℚ) / x.den : ℚ) := by
  unfold value coefficients
  rw [powers_eq]
  have hl := x.num_length
  cases hn : x.num with
  | nil => rw [hn] at hl; have := (K x.parent).pos; simp at hl; omega
  | cons a n =>
    unfold isRational at h
    rw [hn] at h
    simp only [List.tail_cons, List.all_eq_true, decide_eq_true_eq] at h
    rw [List.map_cons, combine_cons, combine_zero]
    · simp
    · simp only [List.mem_map]
      rintro r ⟨m, hm, rfl⟩
      rw [h m hm]; simp

/-- The coefficients over another field. -/
theorem coerce_spec {x : RenfElem K} {p : F} (h : x.isRational = true ∨ x.parent = p) :
    ∃ y, x.coerce p = .ok y ∧ y.coefficients.length = (K p).powers.length ∧ x.value = combine y.coefficients (K p).powers := by
  unfold coerce
  by_cases h1 : x.parent = p
  · subst h1
    rw [if_pos rfl]
    exact ⟨x, rfl, x.coefficients_length, rfl⟩
  · have h2 := h.resolve_right h1
    rw [if_neg h1, if_pos h2]
    refine ⟨_, rfl, coefficients_length _, ?_⟩
    rw [value_rational h2]
    unfold coefficients
    rw [powers_eq, List.map_cons, combine_cons, List.map_replicate]
    simp [combine_replicate]

theorem coerce_error {x : RenfElem K} {p : F} {e : Err} (h : x.coerce p = .error e) : e = .logicError := by
  unfold coerce at h
  split at h
  · cases h
  · split at h <;> cases h
    rfl

/-- An element is rational if its value is. -/
theorem isRational_iff [CharZero T] (x : RenfElem K) : x.isRational = true ↔ ∃ r : ℚ, x.value = r := by
  refine ⟨fun h => ⟨_, value_rational h⟩, ?_⟩
  rintro ⟨r, hr⟩
  have hl := x.num_length
  cases hn : x.num with
  | nil => rw [hn] at hl; have := (K x.parent).pos; simp at hl; omega
  | cons a n =>
    have hlen : (r :: List.replicate ((K x.parent).degree - 1) (0 : ℚ)).length = (K x.parent).powers.length := by
      have := (K x.parent).pos
      simp [NField.powers]; omega
    have hc : combine (r :: List.replicate ((K x.parent).degree - 1) (0 : ℚ)) (K x.parent).powers = r := by
      rw [powers_eq, combine_cons, combine_replicate]; simp
    have h0 : combine (subL x.coefficients (r :: List.replicate ((K x.parent).degree - 1) 0)) (K x.parent).powers = 0 := by
      rw [combine_subL x.coefficients_length hlen, hc]
      exact sub_eq_zero.2 hr
    have h1 := (K x.parent).independent _ (by
      unfold subL
      rw [List.length_zipWith, x.coefficients_length, hlen]
      simp [NField.powers]) h0
    unfold isRational
    rw [hn]
    simp only [List.tail_cons, List.all_eq_true, decide_eq_true_eq]
    intro m hm
    unfold coefficients subL at h1
    rw [hn, List.map_cons, List.zipWith_cons_cons] at h1
    have hnl : n.length = (K x.parent).degree - 1 := by rw [hn] at hl; simp at hl; omega
    have h2 : ((m : ℚ) / x.den) ∈ List.zipWith (· - ·) (n.map (fun (n : ℤ) => (n : ℚ) / x.den)) (List.replicate ((K x.parent).degree - 1) 0) := by
      rw [← hnl]
      clear h1 h0 hc hlen hl hn hnl hr
      induction n with
      | nil => cases hm
      | cons b n ih =>
        simp only [List.length_cons, List.replicate_succ, List.map_cons, List.zipWith_cons_cons, sub_zero, List.mem_cons]
        rcases List.mem_cons.1 hm with h | h
        · subst h; exact .inl rfl
        · exact .inr (ih h)
    have h3 := h1 _ (List.mem_cons_of_mem _ h2)
    have h4 : (x.den : ℚ) ≠ 0 := Int.cast_ne_zero.2 x.den_ne
    rw [div_eq_zero_iff] at h3
    exact Int.cast_eq_zero.1 (h3.resolve_right h4)

end RenfElem

/-- What is returned for elements of number fields. -/
theorem renfCoefficients_spec (K : F → NField T) {l : List (RenfElem K)} {vs : List (List ℚ)} (h : renfCoefficients K l = .ok vs) :
    ∃ (b : List T) (g : RenfElem K → List ℚ), Independent b ∧ vs = l.map g ∧ ∀ x ∈ l, (g x).length = b.length ∧ x.value = combine (g x) b := by
  cases l with
  | nil =>
    cases h
    exact ⟨[], fun _ => [], fun q hq _ => by rw [List.length_eq_zero_iff.1 hq]; simp, rfl, by simp⟩
  | cons x₀ l =>
    simp only [renfCoefficients, bind, Except.bind] at h
    cases hp : RenfElem.common K x₀.parent (x₀ :: l) with
    | error e => rw [hp] at h; cases h
    | ok p =>
      rw [hp] at h
      simp only at h
      obtain ⟨-, h2⟩ := RenfElem.common_spec hp
      have key : ∀ m : List (RenfElem K), (∀ x ∈ m, x.isRational = true ∨ x.parent = p) →
          m.mapM (fun x => (x.coerce p).bind (fun y => pure y.coefficients)) = .ok (m.map (fun x => match x.coerce p with | .ok y => y.coefficients | .error _ => [])) := by
        intro m hm
        induction m with
        | nil => rfl
        | cons a m ih =>
          obtain ⟨y, hy, -⟩ := RenfElem.coerce_spec (hm a List.mem_cons_self)
          rw [List.mapM_cons, ih (fun x hx => hm x (List.mem_cons_of_mem _ hx)), List.map_cons, hy]
          rfl
      have e := key _ h2
      rw [show (x₀ :: l).mapM (fun x => (x.coerce p).bind (fun y => pure y.coefficients)) = .ok vs from h] at e
      refine ⟨(K p).powers, _, (K p).independent, Except.ok.inj e, ?_⟩
      intro x hx
      obtain ⟨y, hy, h3, h4⟩ := RenfElem.coerce_spec (h2 x hx)
      rw [hy]
      exact ⟨h3, h4⟩

theorem renfCoefficients_total (K : F → NField T) {x₀ : RenfElem K} {l : List (RenfElem K)} {q : F} (h : (K x₀.parent).degree = 1 ∨ q = x₀.parent)
    (hl : ∀ x ∈ x₀ :: l, x.isRational = true ∨ x.parent = q) : ∃ vs, renfCoefficients K (x₀ :: l) = .ok vs := by
  obtain ⟨p, hp⟩ := RenfElem.common_total h hl
  obtain ⟨-, h2⟩ := RenfElem.common_spec hp
  simp only [renfCoefficients, bind, Except.bind, hp]
  have key : ∀ m : List (RenfElem K), (∀ x ∈ m, x.isRational = true ∨ x.parent = p) →
      ∃ vs, m.mapM (fun x => (x.coerce p).bind (fun y => pure y.coefficients)) = .ok vs := by
    intro m hm
    induction m with
    | nil => exact ⟨[], rfl⟩
    | cons a m ih =>
      obtain ⟨y, hy, -⟩ := RenfElem.coerce_spec (hm a List.mem_cons_self)
      obtain ⟨vs, hvs⟩ := ih (fun x hx => hm x (List.mem_cons_of_mem _ hx))
      rw [List.mapM_cons, hvs, hy]
      exact ⟨_, rfl⟩
  exact key _ h2

theorem renfCoefficients_error (K : F → NField T) {l : List (RenfElem K)} {e : Err} (h : renfCoefficients K l = .error e) : e = .logicError := by
  cases l with
  | nil => cases h
  | cons x₀ l =>
    simp only [renfCoefficients, bind, Except.bind] at h
    cases hp : RenfElem.common K x₀.parent (x₀ :: l) with
    | error e' =>
      rw [hp] at h
      cases h
      exact RenfElem.common_error hp
    | ok p =>
      rw [hp] at h
      obtain ⟨h1, h2⟩ := RenfElem.common_spec hp
      exfalso
      obtain ⟨vs, hvs⟩ := renfCoefficients_total K h1 h2
      simp only [renfCoefficients, bind, Except.bind, hp] at hvs
      simp only at h
      rw [h] at hvs
      cases hvs

/-! ## Modules -/

namespace ModuleElem

variable {e : ℕ}

theorem span_nodup {m n : List G} (h : m.Nodup) (h' : n.Nodup) : (span m n).Nodup := by
  unfold span
  rw [List.nodup_append]
  refine ⟨h, h'.filter _, ?_⟩
  rintro a ha b hb rfl
  simp only [List.mem_filter, decide_eq_true_eq] at hb
  exact hb.2 ha

theorem mem_span {m n : List G} {a : G} : a ∈ span m n ↔ a ∈ m ∨ a ∈ n := by
  unfold span
  simp only [List.mem_append, List.mem_filter, decide_eq_true_eq]
  tauto

theorem foldl_span : ∀ (l : List (ModuleElem G e)) {m : List G}, m.Nodup → (l.foldl (fun p x => span p x.gens) m).Nodup ∧
    (∀ a ∈ m, a ∈ l.foldl (fun p x => span p x.gens) m) ∧ ∀ x ∈ l, ∀ a ∈ x.gens, a ∈ l.foldl (fun p x => span p x.gens) m
  | [], m, h => ⟨h, fun _ h => h, by simp⟩
  | x :: l, m, h => by
    obtain ⟨h1, h2, h3⟩ := foldl_span l (span_nodup h x.gens_nodup)
    refine ⟨h1, fun a ha => h2 a (mem_span.2 (.inl ha)), ?_⟩
    simp only [List.mem_cons, forall_eq_or_imp]
    exact ⟨fun a ha => h2 a (mem_span.2 (.inr ha)), h3⟩

/-- The numbers over which coordinates are taken. -/
def basis (g : G → T) (β : List T) (parent : List G) : List T := parent.flatMap (fun a => β.map (· * g a))

theorem rationalCoefficients_length (g : G → T) {β : List T} (hβ : β.length = e) (x : ModuleElem G e) (parent : List G) :
    (x.rationalCoefficients parent).length = (basis g β parent).length := by
  unfold rationalCoefficients basis
  induction parent with
  | nil => rfl
  | cons a m ih =>
    rw [List.flatMap_cons, List.flatMap_cons, List.length_append, List.length_append, ih, List.length_map, hβ]
    split
    · rw [x.coeffs_length]
    · rw [List.length_replicate]

theorem combine_rationalCoefficients (g : G → T) {β : List T} (hβ : β.length = e) (x : ModuleElem G e) (parent : List G) :
    combine (x.rationalCoefficients parent) (basis g β parent) =
      ((parent.filter (fun a => a ∈ x.gens)).map (fun a => combine (x.coeffs a) β * g a)).sum := by
  unfold rationalCoefficients basis
  induction parent with
  | nil => rfl
  | cons a m ih =>
    rw [List.flatMap_cons, List.flatMap_cons, List.filter_cons, combine_append, ih]
    · by_cases h : a ∈ x.gens
      · rw [if_pos h, if_pos (by simpa using h), List.map_cons, List.sum_cons, combine_mul_right]
      · rw [if_neg h, if_neg (by simpa using h), combine_replicate, zero_add]
    · rw [List.length_map, hβ]
      split
      · rw [x.coeffs_length]
      · rw [List.length_replicate]

theorem value_eq (g : G → T) {β : List T} (hβ : β.length = e) (x : ModuleElem G e) {parent : List G} (hp : parent.Nodup) (h : ∀ a ∈ x.gens, a ∈ parent) :
    x.value g β = combine (x.rationalCoefficients parent) (basis g β parent) := by
  rw [combine_rationalCoefficients g hβ]
  unfold value
  refine List.Perm.sum_eq (List.Perm.map _ ?_)
  rw [List.perm_ext_iff_of_nodup x.gens_nodup (hp.filter _)]
  intro a
  simp only [List.mem_filter, decide_eq_true_eq]
  exact ⟨fun ha => ⟨h a ha, ha⟩, fun ha => ha.2⟩

end ModuleElem

/-- What is returned for elements of modules. -/
theorem elementCoefficients_spec {e : ℕ} (g : G → T) {β : List T} (hβ : β.length = e) (l : List (ModuleElem G e)) :
    ∃ (parent : List G) (v : ModuleElem G e → List ℚ), parent.Nodup ∧ elementCoefficients l = .ok (l.map v) ∧
      ∀ x ∈ l, (v x).length = (ModuleElem.basis g β parent).length ∧ x.value g β = combine (v x) (ModuleElem.basis g β parent) := by
  cases l with
  | nil => exact ⟨[], fun _ => [], List.nodup_nil, rfl, by simp⟩
  | cons x₀ l =>
    obtain ⟨h1, -, h3⟩ := ModuleElem.foldl_span (x₀ :: l) x₀.gens_nodup
    exact ⟨_, _, h1, rfl, fun x hx => ⟨x.rationalCoefficients_length g hβ _, x.value_eq g hβ h1 (h3 x hx)⟩⟩

/-! ## Relations between coordinates -/

theorem combine_ofFn (b : List T) (q : Fin b.length → ℚ) : combine (List.ofFn q) b = ∑ i, (q i : T) * b.get i := by
  have h : ∀ (n : ℕ) (b : Fin n → T) (q : Fin n → ℚ), combine (List.ofFn q) (List.ofFn b) = ∑ i, (q i : T) * b i := by
    intro n
    induction n with
    | zero => intro b q; simp [combine]
    | succ n ih => intro b q; rw [List.ofFn_succ, List.ofFn_succ, combine_cons, ih, Fin.sum_univ_succ]
  have := h b.length b.get q
  rwa [List.ofFn_get] at this

/-- Coordinates satisfy the same relations as the numbers. -/
theorem Independent.relations [CharZero T] {b : List T} (hb : Independent b) {α : Type} (l : List α) (w : α → Fin b.length → ℚ) (n : α → ℤ) :
    (l.map (fun x => n x • w x)).sum = 0 ↔ (l.map (fun x => n x • combine (List.ofFn (w x)) b)).sum = 0 := by
  have h : (l.map (fun x => n x • combine (List.ofFn (w x)) b)).sum = combine (List.ofFn ((l.map (fun x => n x • w x)).sum)) b := by
    induction l with
    | nil =>
      rw [List.map_nil, List.map_nil, List.sum_nil, combine_ofFn]
      simp
    | cons a l ih =>
      rw [List.map_cons, List.sum_cons, ih, List.map_cons, List.sum_cons, combine_ofFn, combine_ofFn, combine_ofFn, Finset.smul_sum, ← Finset.sum_add_distrib]
      refine Finset.sum_congr rfl (fun i _ => ?_)
      rw [Pi.add_apply, Pi.smul_apply, zsmul_eq_mul, zsmul_eq_mul]
      push_cast
      ring
  rw [h]
  constructor
  · intro h0
    rw [h0]
    exact combine_zero (by simp) b
  · intro h0
    have := hb _ (by simp) h0
    funext i
    exact this _ (by simp)

end Verif
