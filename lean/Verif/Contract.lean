import Verif.Model.IET

/-!
# The contract of the interface `intervalxt::Lengths`

What the induction relies on (libintervalxt/intervalxt/lengths.hpp:40-80, comments there).  This is a
specification, not code.  It is proved for `sample::Lengths` and for `LengthsWithConnections`.
-/

namespace Verif

/-- Specification of the arithmetic parameters of `sample::Lengths`: floor division is the floor of the quotient and
coefficients are an additive function of the lengths. -/
structure Arith.Lawful {T : Type} [CommRing T] [LinearOrder T] (A : Arith T) {d : ℕ}
    (c : T →+ (Fin d → ℚ)) : Prop where
  fdiv_spec : ∀ x y : T, 0 ≤ x → 0 < y → ∃ q : ℤ, A.fdiv x y = .ok q ∧ (q : T) * y ≤ x ∧ x < ((q : T) + 1) * y
  coeffs_spec : ∀ l : List T, A.coeffs l = .ok (l.map (fun x => List.ofFn (c x)))

/-- `O` implements lengths in `T`.

* `inv` is an invariant of the states,
* `dom s` are the labels known to `s`,
* `len s a` is the length of the interval `a` and `stack s` is the current stack of labels,
* `ext s` is any further data which only changes by the transition `mv` when something is subtracted:
  `mv ctx a b` for subtracting (once or repeatedly) from `a` with `b` at the bottom of the stack, called
  from an IET seen as `ctx`,
* `c` assigns to a length its coefficients over a basis with `d` elements. -/
structure LawfulLengths {σ T : Type} [CommRing T] [LinearOrder T] (O : LengthsOps σ T) {d : ℕ}
    (c : T →+ (Fin d → ℚ)) (ε : Type) where
  inv : σ → Prop
  dom : σ → Label → Prop
  len : σ → Label → T
  stack : σ → List Label
  ext : σ → ε
  mv : Ctx → Label → Label → ε → ε
  push_spec : ∀ s l, inv s → dom s l → l ∉ stack s → ∃ s', O.push l s = .ok s' ∧ inv s' ∧
    dom s' = dom s ∧ len s' = len s ∧ stack s' = stack s ++ [l] ∧ ext s' = ext s
  pop_spec : ∀ s st l, inv s → stack s = st ++ [l] → ∃ s', O.pop s = .ok s' ∧ inv s' ∧
    dom s' = dom s ∧ len s' = len s ∧ stack s' = st ∧ ext s' = ext s
  cmp_spec : ∀ s a, inv s → dom s a → (∀ x ∈ stack s, dom s x) → ∃ r, O.cmp a s = .ok r ∧
    (0 ≤ r ↔ len s a ≤ sumLen (len s) (stack s))
  cmp2_spec : ∀ s a b, inv s → dom s a → dom s b → ∃ r, O.cmp2 a b s = .ok r ∧
    (r = 0 ↔ len s a = len s b)
  get_spec : ∀ s a, inv s → dom s a → O.get a s = .ok (len s a)
  coefficients_spec : ∀ s l, inv s → (∀ x ∈ l, dom s x) →
    O.coefficients l s = .ok (l.map (fun x => List.ofFn (c (len s x))))
  /-- Subtract the sum of the stack, when it is smaller. -/
  subtract_spec : ∀ ctx s a, inv s → dom s a → (∀ x ∈ stack s, dom s x) → a ∉ stack s →
    sumLen (len s) (stack s) < len s a →
    ∃ s', O.subtract ctx a s = .ok s' ∧ inv s' ∧ dom s' = dom s ∧
      len s' = shorten (len s) a (sumLen (len s) (stack s)) ∧ stack s' = [] ∧
      ext s' = match stack s with | [] => ext s | b :: _ => mv ctx a b (ext s)
  /-- Subtract the entire stack `k ≥ 1` times and then an initial part `pre` of the stack such that the result is
  positive but not larger than the next length `l` on the stack.  Returns the last label subtracted. -/
  subtractRepeated_spec : ∀ ctx s a, inv s → dom s a → (∀ x ∈ stack s, dom s x) → a ∉ stack s →
    (∀ x ∈ stack s, 0 < len s x) → sumLen (len s) (stack s) < len s a → stack s ≠ [] →
    ∃ stop s' k pre l post, O.subtractRepeated ctx a s = .ok (stop, s') ∧ inv s' ∧ dom s' = dom s ∧
      stack s = pre ++ l :: post ∧ 1 ≤ k ∧
      len s' = shorten (len s) a ((k : ℕ) * sumLen (len s) (stack s) + sumLen (len s) pre) ∧
      0 < len s' a ∧ len s' a ≤ len s l ∧ stack s' = [] ∧
      some stop = (if pre = [] then (stack s).getLast? else pre.getLast?) ∧
      ext s' = match stack s with | [] => ext s | b :: _ => mv ctx a b (ext s)
  /-- A snapshot: the lengths of the known labels, see `forget()`. -/
  forget_spec : ∀ s, inv s → (∀ a, dom s a → 0 ≤ len s a) → ∃ f, O.forget s = .ok f ∧ f.stack = [] ∧
    (∀ x ∈ f.lengths, 0 ≤ x) ∧ ∀ a, dom s a → f.lengths[a]? = some (len s a)

section

variable {σ T ε : Type} [CommRing T] [LinearOrder T] {O : LengthsOps σ T} {d : ℕ} {c : T →+ (Fin d → ℚ)}

/-- The interval exchange transformation that is described by an IET of the model and a state of the lengths. -/
def LawfulLengths.abs (H : LawfulLengths O c ε) (E : IET T) (s : σ) : AIET T :=
  ⟨E.top, E.bottom, H.len s⟩

/-- The IET is valid, all its labels are known to the lengths and nothing is on the stack. -/
structure LawfulLengths.Ok (H : LawfulLengths O c ε) (E : IET T) (s : σ) : Prop where
  inv : H.inv s
  stack : H.stack s = []
  dom : ∀ a ∈ E.top, H.dom s a
  valid : (H.abs E s).Valid
  nonneg : ∀ a, H.dom s a → 0 ≤ H.len s a

end

end Verif
