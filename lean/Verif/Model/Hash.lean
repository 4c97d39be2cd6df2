import Verif.Model.Decomposition

/-!
# Equality and hashes of labels, separatrices, connections and half edges

Hashes are of type `size_t` with 64 bits, all arithmetic wraps around.
-/

namespace Verif

/-- libintervalxt/src/label.cc:47-49.  Simplification: labels of the model are natural numbers, the id of a label is that number as a
`size_t`. -/
def Label.hash (l : Label) : UInt64 := UInt64.ofNat l

namespace Sep

/-- libintervalxt/src/separatrix.cc:43-45 -/
def eq (s t : Sep) : Bool := s.label = t.label && s.parallel = t.parallel

/-- separatrix.cc:82-85 -/
def hash (s : Sep) : UInt64 :=
  let hash := Label.hash s.label
  if s.parallel then hash else -hash

end Sep

namespace Conn

/-- libintervalxt/src/connection.cc:40-45 -/
def eq (c d : Conn) : Bool := c.source.eq d.source && c.target.eq d.target

/-- connection.cc:77-80 -/
def hash (c : Conn) : UInt64 := c.source.hash + (c.target.hash <<< 32)

end Conn

/-- libintervalxt/src/half_edge.cc:154-156: only the label counts. -/
def HalfEdge.hash (h : HalfEdge) : UInt64 := Label.hash h.label

end Verif
