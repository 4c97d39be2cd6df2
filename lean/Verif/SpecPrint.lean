import Verif.Model.Decomposition

/-!
# What is read off a printed text
-/

namespace Verif

/-- Names of labels are told apart and consist of letters. -/
structure Names (name : Label → List Char) : Prop where
  injective : ∀ a b, name a = name b → a = b
  letters : ∀ a, ∀ ch ∈ name a, ch.isAlpha = true

/-- A side without the component it belongs to: the label of a half edge and whether it is on the top, or a connection. -/
def Side.bare : Side → (Label × Bool) ⊕ Conn
  | .edge h => .inl (h.label, h.top)
  | .conn c => .inr c

end Verif
