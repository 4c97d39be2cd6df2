import Verif.Contract
import Verif.Model.World

/-!
# Reachable states

Specification: which states a user can get to.
-/

namespace Verif

variable {σ T ε : Type} [CommRing T] [LinearOrder T] {O : LengthsOps σ T} {d : ℕ} {c : T →+ (Fin d → ℚ)}

/-- The states a user can reach: newly constructed valid IETs with different labels that share their lengths, followed by
any API calls that return. -/
inductive Reachable (H : LawfulLengths O c ε) (L : PPL) : World σ T → Prop
  | init {pieces : List (IET T)} {s : σ} : (∀ E ∈ pieces, E = IET.fresh E.top E.bottom ∧ H.Ok E s) →
      pieces.Pairwise (fun E F => ∀ a ∈ E.top, a ∉ F.top) → Reachable H L ⟨pieces, s⟩
  | step {w w' : World σ T} (fuel : ℕ) (op : Op) : Reachable H L w → op.exec L O fuel w = .ok w' → Reachable H L w'

/-- `Run L O ops w w'`: making the calls `ops` one after the other in the state `w`, all of them return and the state is
`w'` in the end. -/
inductive Run (L : PPL) (O : LengthsOps σ T) : List Op → World σ T → World σ T → Prop
  | nil {w : World σ T} : Run L O [] w w
  | cons {w w' w'' : World σ T} {ops : List Op} (fuel : ℕ) (op : Op) : op.exec L O fuel w = .ok w' → Run L O ops w' w'' →
      Run L O (op :: ops) w w''

end Verif
