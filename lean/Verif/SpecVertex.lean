import Mathlib.Data.Finset.Dedup
import Verif.Spec

/-!
# The vertices of a suspension

An IET is a first return map on a translation surface that is made from a polygon. Its sides are the intervals in the top and the intervals in the bottom. Sides
with the same label are glued.
-/

namespace Verif

/-- Which ends of intervals are the same vertex: the right end (`true`) of an interval and the left end (`false`) of the next one in the top or in the bottom, the
left ends of the first intervals and the right ends of the last intervals in the top and in the bottom. -/
inductive Glued (top bottom : List Label) : Label × Bool → Label × Bool → Prop
  | top {l₁ l₂ : List Label} {x y : Label} : top = l₁ ++ x :: y :: l₂ → Glued top bottom (x, true) (y, false)
  | bottom {l₁ l₂ : List Label} {x y : Label} : bottom = l₁ ++ x :: y :: l₂ → Glued top bottom (x, true) (y, false)
  | left {x y : Label} : top.head? = some x → bottom.head? = some y → Glued top bottom (x, false) (y, false)
  | right {x y : Label} : top.getLast? = some x → bottom.getLast? = some y → Glued top bottom (x, true) (y, true)

/-- The vertices: the ends of the intervals up to gluing. -/
def Vertex (top bottom : List Label) : Type :=
  Quot (fun p q : top.toFinset × Bool => Glued top bottom (p.1, p.2) (q.1, q.2))

end Verif
