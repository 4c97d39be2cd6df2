import Verif.Contract
import Mathlib.Algebra.Ring.Basic
import Mathlib.Algebra.Order.Ring.Defs

/-!
# Specification: other numbers for the same lengths

The library is used with lengths of different types: machine integers, integers, rationals, elements of number fields, elements of modules over
such.  The same lengths can be written in several of these types and they can be rescaled.
-/

namespace Verif

/-- A way to write numbers of type `T` as numbers of type `T'`: it respects sums, the order, and when two quotients are the same. -/
structure NumberMap (T T' : Type) [CommRing T] [LinearOrder T] [CommRing T'] [LinearOrder T'] where
  map : T →+ T'
  mono : StrictMono map
  cross : ∀ x y z w, map x * map y = map z * map w ↔ x * y = z * w

variable {T T' : Type} [CommRing T] [LinearOrder T] [IsStrictOrderedRing T] [CommRing T'] [LinearOrder T'] [IsStrictOrderedRing T']

/-- Multiplication with a positive number. -/
def NumberMap.scale (k : T) (hk : 0 < k) : NumberMap T T where
  map := AddMonoidHom.mulLeft k
  mono _ _ h := mul_lt_mul_of_pos_left h hk
  cross x y z w := by
    simp only [AddMonoidHom.coe_mulLeft]
    rw [mul_mul_mul_comm, mul_mul_mul_comm k z]
    exact ⟨fun h => mul_left_cancel₀ (mul_pos hk hk).ne' h, fun h => by rw [h]⟩

/-- An inclusion of ordered rings. -/
def NumberMap.ofRingHom (g : T →+* T') (hg : StrictMono g) : NumberMap T T' where
  map := g.toAddMonoidHom
  mono := hg
  cross x y z w := by
    show g x * g y = g z * g w ↔ _
    rw [← map_mul, ← map_mul]
    exact hg.injective.eq_iff

/-- One after the other. -/
def NumberMap.comp {T'' : Type} [CommRing T''] [LinearOrder T''] (g : NumberMap T' T'') (f : NumberMap T T') : NumberMap T T'' where
  map := g.map.comp f.map
  mono := g.mono.comp f.mono
  cross x y z w := (g.cross _ _ _ _).trans (f.cross x y z w)

end Verif
