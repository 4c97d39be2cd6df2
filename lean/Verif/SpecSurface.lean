import Verif.Model.Decomposition
import Mathlib.Data.List.Cycle

/-!
# Specification of the contours in the surface

An IET with intervals `top` and `bottom` is the first return map of the vertical flow on a surface.  To get the surface take a
polygon between two chains of segments, from left to right they are labelled `bottom` (below) and `top` (above), and glue the
two segments with the same label.  Here, we only record what happens at the vertices of that polygon.
-/

namespace Verif

/-- A horizontal or vertical direction at a vertex of the surface: along the segment `l`, at its right end, to the left; up into the
polygon from the right end of the bottom segment `l`; along the segment `l`, at its left end, to the right; down into the polygon from
the right end of the top segment `l`. -/
inductive Ray
  | left (l : Label)
  | up (l : Label)
  | right (l : Label)
  | down (l : Label)
  deriving DecidableEq, Repr

/-- The ray which we meet next when we turn clockwise by a quarter turn.  At vertices between two bottom segments we turn from
left to right, at vertices between two top segments from right to left; there is nothing to turn at the left and right
ends of the polygon. -/
inductive Clockwise (top bottom : List Label) : Ray → Ray → Prop
  | leftUp {l l' : Label} : [l, l'] <:+: bottom → Clockwise top bottom (.left l) (.up l)
  | upRight {l l' : Label} : [l, l'] <:+: bottom → Clockwise top bottom (.up l) (.right l')
  | rightDown {l l' : Label} : [l, l'] <:+: top → Clockwise top bottom (.right l') (.down l)
  | downLeft {l l' : Label} : [l, l'] <:+: top → Clockwise top bottom (.down l) (.left l)

/-- The left end of the polygon is the left end of the first top and the first bottom segment. -/
def leftmost (top bottom : List Label) (l : Label) : Label := if bottom.head? = some l then top.head?.getD l else l

/-- The right end of the polygon is the right end of the last top and the last bottom segment. -/
def rightmost (top bottom : List Label) (l : Label) : Label := if bottom.getLast? = some l then top.getLast?.getD l else l

/-- There is only one ray to the right at the left end of the polygon and only one to the left at the right end. -/
def Ray.glue (top bottom : List Label) : Ray → Ray
  | .left l => .left (rightmost top bottom l)
  | .right l => .right (leftmost top bottom l)
  | r => r

/-- We get from one ray to another one by the given number of quarter turns, clockwise. -/
def Turns (top bottom : List Label) : ℕ → Ray → Ray → Prop
  | 0, x, y => x.glue top bottom = y.glue top bottom
  | k + 1, x, y => ∃ z z', x.glue top bottom = z.glue top bottom ∧ Clockwise top bottom z z' ∧ Turns top bottom k z' y

/-- The ray on which a separatrix starts. -/
def Sep.ray (s : Sep) : Ray := if s.parallel then .up s.label else .down s.label

/-- The ray on which a side of a component leaves its first vertex when going around the component counterclockwise, i.e., bottom half
edges go to the right and top half edges go to the left; `lv` are the rays on which the half edges start on the left. -/
def Side.leaves (lv : Label → Label) : Side → Ray
  | .edge h => if h.top then .left h.label else .right (lv h.label)
  | .conn c => c.source.ray

/-- The ray on which we see a side of a component when we have arrived at its last vertex and look back. -/
def Side.arrives (lv : Label → Label) : Side → Ray
  | .edge h => if h.top then .right (lv h.label) else .left h.label
  | .conn c => c.target.ray

def Side.isEdge : Side → Bool
  | .edge _ => true
  | .conn _ => false

/-- The side `f` starts at the vertex at which `e` ends.  The angle between the two (on the left hand side) is `k` quarter turns.
There is no angle only at the left and right end between two half edges, and a full turn only between two connections. -/
def Follows (top bottom : List Label) (lv : Label → Label) (e f : Side) : Prop :=
  ∃ k, Turns top bottom k (e.arrives lv) (f.leaves lv) ∧ k ≤ 4 ∧ (k = 0 → e.isEdge ∧ f.isEdge) ∧ (k = 4 → ¬ e.isEdge ∧ ¬ f.isEdge)

/-- A closed contour: each side starts where the previous one ended, and the first one starts where the last one ended. -/
def Contour (top bottom : List Label) (lv : Label → Label) (sides : List Side) : Prop :=
  (sides : Cycle Side).Chain (Follows top bottom lv)

end Verif
