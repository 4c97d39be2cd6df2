import Verif.ReachDecomp
import Verif.Examples

/-!
# Concrete decompositions
-/

namespace Verif

set_option linter.unusedSectionVars false

variable {σ T : Type} [CommRing T] [LinearOrder T]

/-- Call `decompositionStep` on components; the pairs are limits and components. -/
def Decomp.run (L : PPL) (O : LengthsOps σ T) (fuel : ℕ) : List (ℤ × ℕ) → Decomp σ T → M (List DStep × Decomp σ T)
  | [], D => .ok ([], D)
  | (limit, i) :: calls, D => do
    let (step, D) ← D.decompositionStep L O fuel limit i
    let (steps, D) ← D.run L O fuel calls
    return (step :: steps, D)

theorem DReach.run {L : PPL} {O : LengthsOps σ T} {E : IET T} {s : σ} {fuel : ℕ} : ∀ {calls : List (ℤ × ℕ)} {D D' : Decomp σ T}
    {steps steps' : List DStep}, DReach L O E s D steps → D.run L O fuel calls = .ok (steps', D') → DReach L O E s D' (steps ++ steps')
  | [], D, D', steps, steps', h, hr => by
    cases hr
    simpa using h
  | (limit, i) :: calls, D, D', steps, steps', h, hr => by
    simp only [Decomp.run, bind, Except.bind, pure, Except.pure] at hr
    split at hr
    · cases hr
    · rename_i v h1
      split at hr
      · cases hr
      · rename_i w h2
        cases hr
        have := DReach.run (DReach.step (step := v.1) (D' := v.2) fuel limit i h h1) h2
        simpa using this

/-- Create a decomposition and call `decompositionStep` on components. -/
def Decomp.runFrom (L : PPL) (O : LengthsOps σ T) (E : IET T) (s : σ) (fuel : ℕ) (calls : List (ℤ × ℕ)) : M (List DStep × Decomp σ T) := do
  let D ← Decomp.make O E s
  D.run L O fuel calls

theorem DReach.runFrom {L : PPL} {O : LengthsOps σ T} {E : IET T} {s : σ} {fuel : ℕ} {calls : List (ℤ × ℕ)} {D : Decomp σ T}
    {steps : List DStep} (h : Decomp.runFrom L O E s fuel calls = .ok (steps, D)) : DReach L O E s D steps := by
  simp only [Decomp.runFrom, bind, Except.bind] at h
  split at h
  · cases h
  · rename_i D₀ h0
    have := DReach.run (.init h0) h
    simpa using this

/-- What can be observed after the calls. -/
def Decomp.summary (r : M (List DStep × Decomp σ T)) : M (List (DResult × Option Conn) × List (List Label × List Label × Option Bool × Option Bool)) := do
  let (steps, D) ← r
  return (steps.map (fun st => (st.result, st.connection)),
    D.comps.map (fun x => (x.iet.top, x.iet.bottom, x.cylinder, x.withoutPeriodicTrajectory)))

theorem Decomp.of_summary {r : M (List DStep × Decomp σ T)} {x} (h : Decomp.summary r = .ok x) :
    ∃ steps D, r = .ok (steps, D) ∧ steps.map (fun st => (st.result, st.connection)) = x.1 ∧
      D.comps.map (fun x => (x.iet.top, x.iet.bottom, x.cylinder, x.withoutPeriodicTrajectory)) = x.2 := by
  cases r with
  | error e => cases h
  | ok v => cases h; exact ⟨v.1, v.2, rfl, rfl, rfl⟩

/-- Perform calls on a decomposition. -/
def Decomp.execute (L : PPL) (O : LengthsOps σ T) : List DCall → Decomp σ T → M (List DEvent × Decomp σ T)
  | [], D => .ok ([], D)
  | .step fuel limit i :: calls, D => do
    let (step, D) ← D.decompositionStep L O fuel limit i
    let (events, D) ← D.execute L O calls
    return (.step step :: events, D)
  | .inject h left right :: calls, D => do
    let ((l, r), D) ← D.inject h left right
    let (events, D) ← D.execute L O calls
    return (.inject l r :: events, D)

namespace Examples

/-- Calls of `decompositionStep` on the decomposition of `intIET`: after a first call with limit zero, two connections do
not separate; the third one does, and both components are cylinders. -/
def intCalls : List (ℤ × ℕ) := [(0, 0), (-1, 0), (-1, 0), (-1, 0), (-1, 0), (3, 1)]

theorem int_run (L : PPL) : Decomp.summary (Decomp.runFrom L (SLengths.ops intArith) intIET intState 20 intCalls) =
    .ok ([(.limitReached, none), (.nonSeparatingConnection, some ⟨⟨2, true⟩, ⟨1, false⟩⟩), (.nonSeparatingConnection, some ⟨⟨3, true⟩, ⟨0, false⟩⟩),
      (.separatingConnection, some ⟨⟨1, true⟩, ⟨2, false⟩⟩), (.cylinder, none), (.cylinder, none)],
     [([2], [2], some true, some false), ([3], [3], some true, some false)]) := rfl

theorem int_decomposition (L : PPL) : ∃ steps D, DReach L (SLengths.ops intArith) intIET intState D steps ∧
    steps.map (fun st => (st.result, st.connection)) = [(.limitReached, none), (.nonSeparatingConnection, some ⟨⟨2, true⟩, ⟨1, false⟩⟩),
      (.nonSeparatingConnection, some ⟨⟨3, true⟩, ⟨0, false⟩⟩), (.separatingConnection, some ⟨⟨1, true⟩, ⟨2, false⟩⟩), (.cylinder, none), (.cylinder, none)] ∧
    D.comps.map (fun x => (x.iet.top, x.iet.bottom, x.cylinder, x.withoutPeriodicTrajectory)) =
      [([2], [2], some true, some false), ([3], [3], some true, some false)] := by
  obtain ⟨steps, D, h1, h2, h3⟩ := Decomp.of_summary (int_run L)
  exact ⟨steps, D, .runFrom h1, h2, h3⟩

end Examples

end Verif
