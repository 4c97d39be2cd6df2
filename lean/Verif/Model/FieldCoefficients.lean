import Verif.Model.Base
import Verif.SpecCoefficients

/-!
# Model of the coefficients of elements of number fields and of modules

`Coefficients<eantic::renf_elem_class>` and `Coefficients<exactreal::Element<Ring>>`.  The numbers live in a field `T`, such as the real numbers.
-/

namespace Verif

variable {T : Type} [Field T] {F G : Type} [DecidableEq F] [DecidableEq G]

/-- `eantic::renf_class`: a number field, embedded into `T`.  Its elements are written in terms of the powers of a generator. (sample/renf_elem_coefficients.hpp:40-48) -/
structure NField (T : Type) [Field T] where
  degree : ℕ
  gen : T
  pos : 0 < degree
  independent : Independent ((List.range degree).map (fun i => gen ^ i))

/-- The powers of the generator. (sample/renf_elem_coefficients.hpp:54-60) -/
def NField.powers (K : NField T) : List T := (List.range K.degree).map (fun i => K.gen ^ i)

/-- `eantic::renf_elem_class`: the parent, the numerators of the coefficients (`num_vector()`) and their common denominator (`den()`).  The fields in
use are given by a family `K`; two fields are equal if they have the same index. (sample/renf_elem_coefficients.hpp:51-63) -/
structure RenfElem (K : F → NField T) where
  parent : F
  num : List ℤ
  den : ℤ
  num_length : num.length = (K parent).degree
  den_ne : den ≠ 0

namespace RenfElem

variable {K : F → NField T}

/-- The rational coefficients of an element, renf_elem_coefficients.hpp:58-63. -/
def coefficients (x : RenfElem K) : List ℚ := x.num.map (fun (n : ℤ) => (n : ℚ) / x.den)

/-- The number that is described by an element. (sample/renf_elem_coefficients.hpp:36 and sample/element_coefficients.hpp:39) -/
def value (x : RenfElem K) : T := combine x.coefficients (K x.parent).powers

/-- `is_rational()`: there is only a constant coefficient. (sample/renf_elem_coefficients.hpp:42) -/
def isRational (x : RenfElem K) : Bool := x.num.tail.all (fun n => n = 0)

/-- `renf_elem_class(parent, x)`, used in renf_elem_coefficients.hpp:56: rational numbers can be written in any field.  Other elements cannot be
converted to other fields; e-antic throws. -/
def coerce (p : F) (x : RenfElem K) : M (RenfElem K) :=
  if x.parent = p then .ok x
  else if x.isRational then
    .ok ⟨p, x.num.headD 0 :: List.replicate ((K p).degree - 1) 0, x.den, by have := (K p).pos; simp; omega, x.den_ne⟩
  else .error .logicError

/-- renf_elem_coefficients.hpp:42-50: find a field in which all elements can be written. -/
def common (K : F → NField T) : F → List (RenfElem K) → M F
  | p, [] => .ok p
  | p, x :: l =>
    if x.isRational then common K p l
    else
      let p := if (K p).degree = 1 then x.parent else p
      if p ≠ x.parent then .error .logicError else common K p l

end RenfElem

/-- libintervalxt/intervalxt/sample/renf_elem_coefficients.hpp:38-69 -/
def renfCoefficients (K : F → NField T) (elements : List (RenfElem K)) : M (List (List ℚ)) :=
  match elements with
  | [] => .ok []
  | x₀ :: _ => do
    let p ← RenfElem.common K x₀.parent elements
    elements.mapM (fun x => do
      let x ← x.coerce p
      return x.coefficients)

/-- `exactreal::Element<Ring>`: a combination of the generators of a module.  Coefficients live in a ring with a rational basis of `e` elements (a
single number for the integers and the rationals, the powers of a generator for a number field); they are given by their rational coordinates,
i.e., we do not model the ring itself. (sample/element_coefficients.hpp:39-58) -/
structure ModuleElem (G : Type) (e : ℕ) where
  gens : List G
  coeffs : G → List ℚ
  gens_nodup : gens.Nodup
  coeffs_length : ∀ a, (coeffs a).length = e

namespace ModuleElem

variable {e : ℕ}

/-- The number that is described by an element: `g` are the generators, `β` is the basis of the ring of coefficients. (sample/renf_elem_coefficients.hpp:36 and sample/element_coefficients.hpp:39) -/
def value (g : G → T) (β : List T) (x : ModuleElem G e) : T := (x.gens.map (fun a => combine (x.coeffs a) β * g a)).sum

/-- `exactreal::Module::span`: the generators of both. (exact-real sorts generators; nothing here depends on their order.) (sample/element_coefficients.hpp:45) -/
def span (m n : List G) : List G := m ++ n.filter (fun a => a ∉ m)

/-- `promote(parent)` and `rationalCoefficients()` or `coefficients<mpq_class>()`: the coefficients at all generators of the parent. (sample/element_coefficients.hpp:50-55) -/
def rationalCoefficients (parent : List G) (x : ModuleElem G e) : List ℚ :=
  parent.flatMap (fun a => if a ∈ x.gens then x.coeffs a else List.replicate e 0)

end ModuleElem

/-- libintervalxt/intervalxt/sample/element_coefficients.hpp:40-60 -/
def elementCoefficients {e : ℕ} (elements : List (ModuleElem G e)) : M (List (List ℚ)) :=
  match elements with
  | [] => .ok []
  | x₀ :: _ =>
    let parent := elements.foldl (fun p x => ModuleElem.span p x.gens) x₀.gens
    .ok (elements.map (fun x => x.rationalCoefficients parent))

end Verif
