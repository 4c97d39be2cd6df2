import Verif.Spec

/-!
# Specification: rounds of Zorich induction

Nothing in this file refers to the code.
-/

namespace Verif

variable {P : Type} [CommRing P] [LinearOrder P]

/-- A saddle connection is visible: the first top interval and the first bottom interval have the same length. -/
def AIET.Level (A : AIET P) : Prop := ∃ a b, A.top.head? = some a ∧ A.bottom.head? = some b ∧ A.len a = A.len b

/-- Shorten the first top interval by first bottom intervals, as often as possible. -/
def TopPhase (A B : AIET P) : Prop := Relation.ReflTransGen RauzyTop A B ∧ ∀ C, ¬ RauzyTop B C

/-- Shorten the first bottom interval by first top intervals, as often as possible. -/
def BottomPhase (A B : AIET P) : Prop := TopPhase A.inv B.inv

/-- A round of Zorich induction in which no connection shows up. -/
def Round (A B : AIET P) : Prop := ∃ C, TopPhase A C ∧ ¬ C.Level ∧ BottomPhase C B ∧ ¬ B.Level

/-- A round of Zorich induction that is stopped by a connection that shows up. -/
def LastRound (A B : AIET P) : Prop := (TopPhase A B ∧ B.Level) ∨ ∃ C, TopPhase A C ∧ ¬ C.Level ∧ BottomPhase C B ∧ B.Level

end Verif
