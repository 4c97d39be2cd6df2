import Verif.Props.Lifetime

/-!
# C98: variables that have been moved from
-/

namespace Verif.Lifetime

/-- The same call on another variable. -/
def Call.on (v : ℕ) : Call → Call
  | .makeLengths => .makeLengths
  | .makeIET _ => .makeIET v
  | .lengths _ => .lengths v
  | .callIET _ split => .callIET v split
  | .makeDecomposition _ => .makeDecomposition v
  | .handle _ component => .handle v component
  | .callComponent _ split => .callComponent v split
  | .componentIET _ => .componentIET v
  | .drop _ => .drop v
  | .move _ => .move v
  | .assign w _ => .assign w v

/-- Calls of a member function or a constructor with a variable, i.e., not destroying, moving, or assigning it. -/
def Call.follows : Call → Prop
  | .makeLengths | .drop _ | .move _ | .assign _ _ => False
  | _ => True

/-- **C98** Moving a variable does not touch any object and no reference count.  The new variable is what the old variable was, the old variable is empty.  All the other
variables are what they were. -/
theorem C98_move {s : State} {v : ℕ} {x : Var} (hx : s.vars[v]? = some x) :
    ∃ s', run s (.move v) = .ok s' ∧ s'.heap = s.heap ∧ s'.vars.length = s.vars.length + 1 ∧ s'.vars[0]? = some x ∧ s'.vars[v + 1]? = some .empty ∧
      ∀ u, u ≠ v → s'.vars[u + 1]? = s.vars[u]? := by
  have hlt := (List.getElem?_eq_some_iff.mp hx).1
  refine ⟨⟨s.heap, x :: s.vars.set v .empty⟩, by simp only [run, hx], rfl, by simp, rfl, by simp [hlt], fun u hu => ?_⟩
  simp [List.getElem?_set_ne (fun e => hu e.symm)]

/-- **C98** Any call on the new variable does to the objects what it would have done on the old variable, and has the same outcome. -/
theorem C98_same {s s' : State} {v : ℕ} {x : Var} (hx : s.vars[v]? = some x) (h : run s (.move v) = .ok s') (c : Call) (hc : c.follows ∨ c = .drop v) :
    (run s' (c.on 0)).map State.heap = (run s (c.on v)).map State.heap := by
  simp only [run, hx] at h
  cases h
  cases c with
  | makeLengths => rcases hc with hc | hc <;> cases hc
  | move u => rcases hc with hc | hc <;> cases hc
  | assign u w => rcases hc with hc | hc <;> cases hc
  | _ =>
    simp only [Call.on, run, hx, List.getElem?_cons_zero]
    cases x <;> first | rfl | (simp only [bind, Except.bind, pure, Except.pure]; (repeat' split) <;> first | rfl | simp_all [Except.map])

/-- **C98** Any member function or constructor that is called on a variable that has been moved from has undefined behaviour. -/
theorem C98_empty {s : State} {v : ℕ} (hv : s.vars[v]? = some .empty) (c : Call) (hc : c.follows) : run s (c.on v) = .error .ub := by
  cases c <;> first | exact hc.elim | simp only [Call.on, run, hv]

/-- **C98** This is the only way to get undefined behaviour: no other call on a variable of the right type follows a pointer to something that does not exist, whatever has been
moved, assigned, and destroyed before. -/
theorem C98_only {s : State} (h : Running s) (c : Call) (hc : Legal s c ∨ ∃ v, c = c.on v ∧ s.vars[v]? = some .empty) :
    run s c = .error .ub ↔ c.follows ∧ ∃ v, c = c.on v ∧ s.vars[v]? = some .empty := by
  have legal : Legal s c → run s c ≠ .error .ub := by
    intro hl e
    obtain ⟨s', h'⟩ := C85_valid h c hl
    rw [e] at h'
    cases h'
  constructor
  · intro e
    rcases hc with hc | ⟨v, e1, hv⟩
    · exact (legal hc e).elim
    refine ⟨?_, v, e1, hv⟩
    cases c with
    | makeLengths => exact (legal trivial e).elim
    | drop u => cases e1; exact (legal ⟨_, hv⟩ e).elim
    | move u => cases e1; exact (legal ⟨_, hv⟩ e).elim
    | assign u w =>
      cases e1
      cases hu : s.vars[u]? with
      | none => simp [run, hu] at e
      | some y => exact (legal ⟨_, _, hu, hv⟩ e).elim
    | _ => trivial
  · rintro ⟨h1, v, e1, hv⟩
    rw [e1]
    exact C98_empty hv c h1

/-- **C98** Assigning destroys what the variable has contained before, i.e., does to the objects what destroying the variable would have done; the other variable is empty then. -/
theorem C98_assign {s t : State} {v w : ℕ} {x : Var} (hvw : v ≠ w) (hx : s.vars[w]? = some x) (h : run s (.drop v) = .ok t) :
    ∃ s', run s (.assign v w) = .ok s' ∧ s'.heap = t.heap ∧ s'.vars.length = s.vars.length ∧ s'.vars[v]? = some x ∧ s'.vars[w]? = some .empty ∧
      ∀ u, u ≠ v → u ≠ w → s'.vars[u]? = s.vars[u]? := by
  cases hy : s.vars[v]? with
  | none => simp [run, hy] at h
  | some y =>
    simp only [run, hy] at h
    cases hr : release (total s.heap) y.owns s.heap with
    | error e => rw [hr] at h; cases h
    | ok heap =>
      rw [hr] at h
      cases h
      refine ⟨⟨heap, (s.vars.set w .empty).set v x⟩, ?_, rfl, by simp, ?_, ?_, ?_⟩
      · simp only [run, hy, hx, if_neg hvw, hr]; rfl
      · have := (List.getElem?_eq_some_iff.mp hy).1
        simp [this]
      · have := (List.getElem?_eq_some_iff.mp hx).1
        simp only
        rw [List.getElem?_set_ne hvw]
        simp [this]
      · intro u h1 h2
        simp only
        rw [List.getElem?_set_ne (fun e => h1 e.symm), List.getElem?_set_ne (fun e => h2 e.symm)]

/-- **C98** Assigning a variable to itself changes nothing. -/
theorem C98_self {s : State} {v : ℕ} {x : Var} (hx : s.vars[v]? = some x) : run s (.assign v v) = .ok s := by simp [run, hx]

/-- **C98** Variables that have been moved from keep nothing alive. -/
theorem C98_leak {s : State} (h : Running s) (hv : ∀ v ∈ s.vars, v = .empty) (a : ℕ) : alive s.heap a = false := by
  rw [← Bool.not_eq_true, C85_alive h]
  intro hr
  induction hr with
  | var hm ho => rw [hv _ hm] at ho; cases ho
  | member _ _ _ ih => exact ih

/-- A program that returns a decomposition of an IET which is moved into another variable; the IET is moved, too. -/
example : runAll ⟨[], []⟩ [.makeLengths, .makeIET 0, .move 0, .makeDecomposition 0, .move 0, .drop 1, .drop 1] =
    .ok ⟨[⟨2, .lengths⟩, ⟨1, .decomposition [2]⟩, ⟨1, .withConnections 0 1⟩], [.handle 1 none, .empty, .lengths 0]⟩ := by
  decide +kernel

end Verif.Lifetime
