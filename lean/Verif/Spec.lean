import Mathlib.Algebra.Order.Ring.Defs
import Mathlib.Algebra.BigOperators.Group.List.Basic
import Mathlib.Logic.Relation
import Mathlib.Algebra.Order.Field.Rat
import Mathlib.Data.List.FinRange

/-!
# Specification: interval exchange transformations as maps

Nothing in this file refers to the code.  It defines what an interval exchange
transformation *is* (a relation on points), what first return maps, periodic
points and elementary Rauzy steps are.
-/

namespace Verif

/-- Interval labels. -/
abbrev Label := Nat

/-- An abstract interval exchange transformation: the order of the intervals
before (`top`) and after (`bottom`) the exchange and their lengths. -/
structure AIET (P : Type) where
  top : List Label
  bottom : List Label
  len : Label → P

/-- Sum of the lengths of a list of intervals. -/
def sumLen {P : Type} [Zero P] [Add P] (len : Label → P) : List Label → P
  | [] => 0
  | a :: l => len a + sumLen len l

/-- Left end point of the interval `a` when intervals are placed in the order
`l` starting at zero: the total length of all intervals left of `a`. -/
def off {P : Type} [Zero P] [Add P] (len : Label → P) : List Label → Label → P
  | [], _ => 0
  | b :: l, a => if b = a then 0 else len b + off len l a

namespace AIET

variable {P : Type} [CommRing P] [LinearOrder P]

/-- The length of the interval on which the transformation acts. -/
def total (E : AIET P) : P := sumLen E.len E.top

/-- A valid IET: at least one interval, the same labels on top and bottom,
no label twice, all lengths positive. -/
structure Valid (E : AIET P) : Prop where
  ne_nil : E.top ≠ []
  nodup : E.top.Nodup
  perm : E.bottom.Perm E.top
  pos : ∀ a ∈ E.top, 0 < E.len a

/-- The transformation as a relation: `x` lies in the top interval `a`
and `y` is the corresponding point of the bottom interval `a`. -/
def Maps (E : AIET P) (x y : P) : Prop :=
  ∃ a ∈ E.top, off E.len E.top a ≤ x ∧ x < off E.len E.top a + E.len a ∧
    y = x - off E.len E.top a + off E.len E.bottom a

/-- The translation applied to the points of the interval `a`. -/
def transl (E : AIET P) (a : Label) : P := off E.len E.bottom a - off E.len E.top a

/-- The right end point of the top interval `a`. -/
def rightTop (E : AIET P) (a : Label) : P := off E.len E.top a + E.len a

/-- The right end point of the bottom interval `a`. -/
def rightBottom (E : AIET P) (a : Label) : P := off E.len E.bottom a + E.len a

/-- The inverse transformation. -/
def inv (E : AIET P) : AIET P := ⟨E.bottom, E.top, E.len⟩

/-- The same transformation with lengths read in another ring, e.g., in the real numbers. -/
def map {Q : Type} (ι : P → Q) (E : AIET P) : AIET Q := ⟨E.top, E.bottom, fun a => ι (E.len a)⟩

/-- The same intervals in the same order with the same lengths. -/
def Agree (E E' : AIET P) : Prop := E.top = E'.top ∧ E.bottom = E'.bottom ∧ ∀ a ∈ E.top, E.len a = E'.len a

/-- A coordinate of the Sah-Arnoux-Fathi invariant `∑ λₐ ∧ τₐ` with respect to two additive functions
`φ`, `ψ` on lengths with rational values. -/
def saf (φ ψ : P → ℚ) (E : AIET P) : ℚ :=
  (E.top.map (fun a => φ (E.len a) * ψ (E.transl a) - ψ (E.len a) * φ (E.transl a))).sum

/-- The Sah-Arnoux-Fathi invariant with respect to coordinates `c`: all coordinates `i < j`, ordered lexicographically. -/
def safVector {d : ℕ} (c : P → Fin d → ℚ) (E : AIET P) : List ℚ :=
  (List.finRange d).flatMap (fun i => ((List.finRange d).filter (fun j => i < j)).map
    (fun j => E.saf (fun x => c x i) (fun x => c x j)))

/-- No proper non-empty prefix of top has the same labels as the prefix of
bottom of the same size. -/
def Irreducible (E : AIET P) : Prop :=
  ∀ k, 0 < k → k < E.top.length → ¬ (E.top.take k).Perm (E.bottom.take k)

end AIET

/-- `FirstReturn R S x y`: following `R` from `x` for at least one step, the first
point in `S` is `y`. -/
inductive FirstReturn {P : Type} (R : P → P → Prop) (S : P → Prop) : P → P → Prop
  | now {x y} : R x y → S y → FirstReturn R S x y
  | later {x z y} : R x z → ¬ S z → FirstReturn R S z y → FirstReturn R S x y

/-- `x` is a periodic point of `R` (of any period at least one). -/
def Periodic {P : Type} (R : P → P → Prop) (x : P) : Prop := Relation.TransGen R x x

/-- `Iter R n x y`: applying `R` exactly `n` times to `x` can give `y`. -/
def Iter {P : Type} (R : P → P → Prop) : Nat → P → P → Prop
  | 0, x, y => x = y
  | n + 1, x, y => ∃ z, R x z ∧ Iter R n z y

/-- `E'` is, after translation by `δ`, the first return map of `E` to `[δ, total E)`,
i.e., to the right hand sub-interval of length `total E'`. -/
structure IsReturnMap {P : Type} [CommRing P] [LinearOrder P] (E : AIET P) (δ : P) (E' : AIET P) :
    Prop where
  nonneg : 0 ≤ δ
  total_eq : E'.total + δ = E.total
  maps_iff : ∀ x y, 0 ≤ x → x < E'.total →
    (E'.Maps x y ↔ FirstReturn E.Maps (fun z => δ ≤ z) (x + δ) (y + δ))

/-- `z` lies in the interval `[o, o + total A)` for the piece `(o, A)`. -/
def Inside {P : Type} [CommRing P] [LinearOrder P] (p : P × AIET P) (z : P) : Prop := p.1 ≤ z ∧ z < p.1 + p.2.total

/-- The dynamics of `E` is described by the pieces `(o, A)`, each of them being (after a translation by `o`) the first return map of
`E` to the interval `[o, o + total A)`: every orbit meets some piece, and no orbit gets from one piece to another one. In
particular the intervals are disjoint. -/
structure Covers {P : Type} [CommRing P] [LinearOrder P] (E : AIET P) (pieces : List (P × AIET P)) : Prop where
  valid : ∀ p ∈ pieces, p.2.Valid
  inside : ∀ p ∈ pieces, 0 ≤ p.1 ∧ p.1 + p.2.total ≤ E.total
  maps : ∀ p ∈ pieces, ∀ x y, 0 ≤ x → x < p.2.total →
    (p.2.Maps x y ↔ FirstReturn E.Maps (Inside p) (x + p.1) (y + p.1))
  meets : ∀ x, 0 ≤ x → x < E.total → ∃ p ∈ pieces, ∃ y, Relation.ReflTransGen E.Maps x y ∧ Inside p y
  separate : pieces.Pairwise (fun p q => ∀ x y, Inside p x → Inside q y →
    ¬ Relation.ReflTransGen E.Maps x y ∧ ¬ Relation.ReflTransGen E.Maps y x)

/-- The point `x` lies in the top interval `a` and is mapped to `y`. -/
def AIET.MapsBy {P : Type} [CommRing P] [LinearOrder P] (E : AIET P) (a : Label) (x y : P) : Prop :=
  a ∈ E.top ∧ off E.len E.top a ≤ x ∧ x < off E.len E.top a + E.len a ∧ y = x - off E.len E.top a + off E.len E.bottom a

/-- The orbit of `x` visits exactly the intervals in the non-empty list, in this order, to get to `y` and all the points strictly between
`x` and `y` are outside of `S`. -/
def AIET.Excursion {P : Type} [CommRing P] [LinearOrder P] (E : AIET P) (S : P → Prop) : List Label → P → P → Prop
  | [], _, _ => False
  | [a], x, y => E.MapsBy a x y
  | a :: b :: w, x, y => ∃ z, E.MapsBy a x z ∧ ¬ S z ∧ E.Excursion S (b :: w) z y

/-- Every interval `a` of a piece has an itinerary `w a` of intervals of `E`, namely the intervals that all the points of `a` visit until
they first return to the piece, and the towers over these intervals fill the intervals of `E` exactly. -/
structure Towers {P : Type} [CommRing P] [LinearOrder P] (E : AIET P) (pieces : List (P × AIET P)) (w : Label → List Label) : Prop where
  excursion : ∀ p ∈ pieces, ∀ a ∈ p.2.top, ∀ x y, p.2.MapsBy a x y → E.Excursion (Inside p) (w a) (x + p.1) (y + p.1)
  heights : ∀ b ∈ E.top, E.len b = (pieces.map (fun p => sumLen (fun a => (((w a).count b : ℕ) : P) * p.2.len a) p.2.top)).sum

/-- The lengths after the interval `a` has been shortened by `d`. -/
def shorten {P : Type} [Sub P] (len : Label → P) (a : Label) (d : P) : Label → P :=
  fun c => if c = a then len a - d else len c

/-- The elementary left Rauzy induction step when the first top interval `a` is strictly longer
than the first bottom interval `b`: shorten `a` by `b` and move `b` directly in
front of `a` in the bottom. -/
inductive RauzyTop {P : Type} [CommRing P] [LinearOrder P] : AIET P → AIET P → Prop
  | mk (a b : Label) (t l₁ l₂ : List Label) (len : Label → P) (h : len b < len a) :
      RauzyTop ⟨a :: t, b :: (l₁ ++ a :: l₂), len⟩
        ⟨a :: t, l₁ ++ b :: a :: l₂, shorten len a (len b)⟩

/-- An elementary left Rauzy induction step: either of the first top and the first bottom interval is
shortened by the other one. -/
def RauzyStep {P : Type} [CommRing P] [LinearOrder P] (E E' : AIET P) : Prop :=
  RauzyTop E E' ∨ RauzyTop E.inv E'.inv

/-- Removing a visible saddle connection: the first top interval `t` and the first bottom interval
`b` have the same length; `t` is removed from the top and replaced by `b` in the bottom. -/
inductive MergeTop {P : Type} : AIET P → AIET P → Prop
  | mk (t b : Label) (top l₁ l₂ : List Label) (len : Label → P) (h : len b = len t) :
      MergeTop ⟨t :: top, b :: (l₁ ++ t :: l₂), len⟩ ⟨top, l₁ ++ b :: l₂, len⟩

end Verif
