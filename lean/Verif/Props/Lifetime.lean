import Verif.Proofs.Lifetime

/-!
# C85: object lifetimes

The specification: which calls a program can contain (`Legal`), and which objects can still be reached by following the pointers that are
members of variables and objects (`Reaches`).
-/

namespace Verif.Lifetime

/-- The call is made on a variable of the right type.  Pointers to components are only created for components that exist. -/
def Legal (s : State) : Call → Prop
  | .makeLengths => True
  | .makeIET v => ∃ a, s.vars[v]? = some (.lengths a)
  | .lengths v | .callIET v _ | .makeDecomposition v => ∃ a, s.vars[v]? = some (.iet a)
  | .handle v k => ∃ d k', s.vars[v]? = some (.handle d k') ∧
      ∀ i, k = some i → ∃ c cs, s.heap[d]? = some c ∧ c.obj = .decomposition cs ∧ i < cs.length
  | .callComponent v _ | .componentIET v => ∃ d i, s.vars[v]? = some (.handle d (some i))
  | .drop v | .move v => ∃ x, s.vars[v]? = some x
  | .assign v w => ∃ x y, s.vars[v]? = some x ∧ s.vars[w]? = some y

/-- The states after legal calls that return, from the start of the program. -/
inductive Running : State → Prop
  | start : Running ⟨[], []⟩
  | call {s s' : State} (c : Call) : Running s → Legal s c → run s c = .ok s' → Running s'

/-- The object can be reached from a variable of the user through `shared_ptr`s. -/
inductive Reaches (s : State) : ℕ → Prop
  | var {v : Var} {a : ℕ} : v ∈ s.vars → a ∈ v.owns → Reaches s a
  | member {a b : ℕ} {c : Cell} : Reaches s a → s.heap[a]? = some c → b ∈ c.obj.owns → Reaches s b

/-- Each legal call returns and keeps the reference counts correct. -/
theorem run_inv {s : State} (I : Inv s.vars s.heap []) (c : Call) (hc : Legal s c) :
    ∃ s', run s c = .ok s' ∧ Inv s'.vars s'.heap [] := by
  have hvar : ∀ {v : ℕ} {x : Var}, s.vars[v]? = some x → x ∈ s.vars := fun h => List.mem_of_getElem? h
  cases c with
  | makeLengths =>
    refine ⟨_, rfl, ?_⟩
    have : Inv s.vars (make s.heap .lengths) (s.heap.length :: []) :=
      Inv.make (o := .lengths) I (Inv.typed_append I.typed (.inl rfl) (by intro l d h; cases h))
    refine Inv.bind (v := .lengths s.heap.length) this ?_
    simp [VarTyped, make]
  | makeIET v =>
    obtain ⟨a, ha⟩ := hc
    obtain ⟨heap', h1, h2, h3⟩ := I.acquire (I.pos_var (hvar ha) (a := a) (by simp [Var.owns]))
    have ht : VarTyped (s.heap.map Cell.obj) (.lengths a) := I.vars _ (hvar ha)
    have hu : use heap' a = .ok () := Inv.use_lengths (by rw [h3]; exact ht) (h2.pos (by simp))
    refine ⟨⟨heap', .iet a :: s.vars⟩, ?_, Inv.bind (v := .iet a) h2 (by rw [h3]; exact ht)⟩
    simp only [run, ha, h1]
    change (use heap' a >>= fun _ => _) = _
    rw [hu]; rfl
  | lengths v =>
    obtain ⟨a, ha⟩ := hc
    obtain ⟨heap', h1, h2, h3⟩ := I.acquire (I.pos_var (hvar ha) (a := a) (by simp [Var.owns]))
    have ht : VarTyped (s.heap.map Cell.obj) (.iet a) := I.vars _ (hvar ha)
    refine ⟨⟨heap', .lengths a :: s.vars⟩, ?_, Inv.bind (v := .lengths a) h2 (by rw [h3]; exact ht)⟩
    simp only [run, ha, h1]; rfl
  | callIET v split =>
    obtain ⟨a, ha⟩ := hc
    have hp := I.pos_var (hvar ha) (a := a) (by simp [Var.owns])
    obtain ⟨heap', h1, h2, h3⟩ := I.acquire hp
    have ht : VarTyped (s.heap.map Cell.obj) (.iet a) := I.vars _ (hvar ha)
    have hu : use s.heap a = .ok () := Inv.use_lengths ht hp
    cases split with
    | true =>
      refine ⟨⟨heap', .iet a :: s.vars⟩, ?_, Inv.bind (v := .iet a) h2 (by rw [h3]; exact ht)⟩
      simp only [run, ha, hu]
      change (acquire s.heap a >>= fun _ => _) = _
      rw [h1]; rfl
    | false =>
      refine ⟨s, ?_, I⟩
      simp only [run, ha, hu]; rfl
  | makeDecomposition v =>
    obtain ⟨a, ha⟩ := hc
    have hp := I.pos_var (hvar ha) (a := a) (by simp [Var.owns])
    obtain ⟨heap', h1, h2, h3⟩ := I.acquire hp
    have ht : VarTyped (s.heap.map Cell.obj) (.iet a) := I.vars _ (hvar ha)
    have h4 : Inv s.vars (make heap' (.decomposition [])) (heap'.length :: [a]) :=
      Inv.make (o := .decomposition []) h2 (Inv.typed_append h2.typed (.inl rfl) (by intro l d h; cases h))
    have ha' : ((make heap' (.decomposition [])).map Cell.obj)[a]? = some .lengths := by
      have : (heap'.map Cell.obj)[a]? = some Obj.lengths := by rw [h3]; exact ht
      rw [make, List.map_append, List.getElem?_append_left (List.getElem?_eq_some_iff.mp this).1]; exact this
    have hd' : ((make heap' (.decomposition [])).map Cell.obj)[heap'.length]? = some (.decomposition []) := by simp [make]
    have h5 : Inv s.vars (make (make heap' (.decomposition [])) (.withConnections a heap'.length))
        ((make heap' (.decomposition [])).length :: [heap'.length]) := by
      refine Inv.make (o := .withConnections a heap'.length) (h4.perm (List.Perm.swap _ _ _)) ?_
      exact Inv.typed_append h4.typed (.inr ⟨a, heap'.length, [], rfl, ha', hd'⟩) (by intro l d h; simp [Obj.owns])
    have hw : ((make (make heap' (.decomposition [])) (.withConnections a heap'.length)).map Cell.obj)[(make heap' (.decomposition [])).length]? =
        some (.withConnections a heap'.length) := by simp [make]
    have hu : use (make (make heap' (.decomposition [])) (.withConnections a heap'.length)) (make heap' (.decomposition [])).length = .ok () :=
      h5.use_with hw (h5.pos (by simp)) (h5.pos (by simp))
    have hd : (make (make heap' (.decomposition [])) (.withConnections a heap'.length))[heap'.length]? = some ⟨1, .decomposition []⟩ := by
      simp [make]
    obtain ⟨h6, h7⟩ := h5.addComponent hd (by decide) hw
    refine ⟨⟨_, .handle heap'.length none :: s.vars⟩, ?_, Inv.bind (v := .handle heap'.length none) h6 ⟨_, h7, by intro i hi; cases hi⟩⟩
    simp only [run, ha, h1]
    change (use _ _ >>= fun _ => _) = _
    rw [hu]; rfl
  | handle v k =>
    obtain ⟨d, k', hv, hk⟩ := hc
    have hp := I.pos_var (hvar hv) (a := d) (by simp [Var.owns])
    obtain ⟨heap', h1, h2, h3⟩ := I.acquire hp
    obtain ⟨cs, h4, h5⟩ : VarTyped (s.heap.map Cell.obj) (.handle d k') := I.vars _ (hvar hv)
    have hderef := Inv.deref h4 hp
    have hk' : ∀ i, k = some i → i < cs.length := by
      intro i hi
      obtain ⟨c, cs', e1, e2, e3⟩ := hk i hi
      rw [List.getElem?_map, e1] at h4
      simp [e2] at h4
      rw [← h4]; exact e3
    refine ⟨⟨heap', .handle d k :: s.vars⟩, ?_, Inv.bind (v := .handle d k) h2 ⟨cs, by rw [h3]; exact h4, hk'⟩⟩
    simp only [run, hv, hderef]
    cases k with
    | none =>
      change (acquire s.heap d >>= fun _ => _) = _
      rw [h1]; rfl
    | some i =>
      have : componentAt cs i = .ok (cs[i]'(hk' i rfl)) := by simp [componentAt, hk' i rfl]
      simp only [bind, Except.bind, this, h1]; rfl
  | callComponent v split =>
    obtain ⟨d, i, hv⟩ := hc
    have hp := I.pos_var (hvar hv) (a := d) (by simp [Var.owns])
    obtain ⟨cs, h4, h5⟩ : VarTyped (s.heap.map Cell.obj) (.handle d (some i)) := I.vars _ (hvar hv)
    have hderef := Inv.deref h4 hp
    have hi := h5 i rfl
    have hcomp : componentAt cs i = .ok (cs[i]'hi) := by simp [componentAt, hi]
    obtain ⟨l, hw⟩ := I.typed.2 d cs h4 _ (List.getElem_mem hi)
    obtain ⟨n, hn⟩ := cell_of_obj h4
    have hwp : 0 < cnt s.heap cs[i] := I.pos_member hn hp (by simp [Obj.owns])
    have hu : use s.heap cs[i] = .ok () := I.use_with hw hwp hp
    cases split with
    | false =>
      refine ⟨s, ?_, I⟩
      simp only [run, hv, bind, Except.bind, hderef, hcomp, hu]; rfl
    | true =>
      obtain ⟨heap₁, a1, a2, a3⟩ := I.acquire hwp
      have hp₁ : 0 < cnt heap₁ d := by
        refine a2.pos ?_
        simp only [owners, List.mem_append, List.mem_flatMap]
        exact .inl (.inl ⟨_, hvar hv, by simp [Var.owns]⟩)
      obtain ⟨heap₂, b1, b2, b3⟩ := a2.acquire hp₁
      have hobj : (heap₂.map Cell.obj)[d]? = some (.decomposition cs) := by rw [b3, a3]; exact h4
      obtain ⟨m, hm⟩ := cell_of_obj hobj
      have hm0 : m ≠ 0 := by
        have := b2.pos (a := d) (by simp)
        rw [cnt_of hm] at this
        exact this.ne'
      obtain ⟨c1, c2⟩ := (b2.perm (List.Perm.swap _ _ _)).addComponent hm hm0 (l := l) (by rw [b3, a3]; exact hw)
      refine ⟨⟨_, .handle d (some cs.length) :: s.vars⟩, ?_, Inv.bind (v := .handle d (some cs.length)) c1
        ⟨_, c2, by intro j hj; cases hj; simp⟩⟩
      simp only [run, hv, bind, Except.bind, hderef, hcomp, hu, a1, b1, if_true, hm]; rfl
  | componentIET v =>
    obtain ⟨d, i, hv⟩ := hc
    have hp := I.pos_var (hvar hv) (a := d) (by simp [Var.owns])
    obtain ⟨cs, h4, h5⟩ : VarTyped (s.heap.map Cell.obj) (.handle d (some i)) := I.vars _ (hvar hv)
    have hderef := Inv.deref h4 hp
    have hi := h5 i rfl
    have hcomp : componentAt cs i = .ok (cs[i]'hi) := by simp [componentAt, hi]
    obtain ⟨l, hw⟩ := I.typed.2 d cs h4 _ (List.getElem_mem hi)
    obtain ⟨n, hn⟩ := cell_of_obj h4
    have hwp : 0 < cnt s.heap cs[i] := I.pos_member hn hp (by simp [Obj.owns])
    have hu : use s.heap cs[i] = .ok () := I.use_with hw hwp hp
    refine ⟨⟨make s.heap .lengths, .iet s.heap.length :: s.vars⟩, ?_, ?_⟩
    · simp only [run, hv, bind, Except.bind, hderef, hcomp, hu]; rfl
    · have : Inv s.vars (make s.heap .lengths) (s.heap.length :: []) :=
        Inv.make (o := .lengths) I (Inv.typed_append I.typed (.inl rfl) (by intro l d h; cases h))
      refine Inv.bind (v := .iet s.heap.length) this ?_
      simp [VarTyped, make]
  | drop v =>
    obtain ⟨x, hx⟩ := hc
    obtain ⟨heap', h1, h2, _⟩ := (I.unbind hx).release (total s.heap) le_rfl
    rw [List.append_nil] at h1
    refine ⟨⟨heap', s.vars.eraseIdx v⟩, ?_, h2⟩
    simp only [run, hx, h1]; rfl
  | move v =>
    obtain ⟨x, hx⟩ := hc
    refine ⟨⟨s.heap, x :: s.vars.set v .empty⟩, by simp only [run, hx], I.vars_of (fun a => ?_) ?_⟩
    · have := vars_set hx .empty a
      simp only [List.flatMap_cons, List.count_append, Var.owns, List.count_nil] at this ⊢
      omega
    · intro y hy
      rcases List.mem_cons.mp hy with rfl | hy
      · exact .inl (hvar hx)
      · exact List.mem_or_eq_of_mem_set hy
  | assign v w =>
    obtain ⟨y, x, hy, hx⟩ := hc
    by_cases hvw : v = w
    · exact ⟨s, by simp only [run, hy, hx, if_pos hvw], I⟩
    have hy' : (s.vars.set w .empty)[v]? = some y := by rw [List.getElem?_set_ne (fun e => hvw e.symm)]; exact hy
    have I' : Inv ((s.vars.set w .empty).set v x) s.heap y.owns := by
      refine I.vars_of (fun a => ?_) ?_
      · have h1 := vars_set hx .empty a
        have h2 := vars_set hy' x a
        simp only [Var.owns, List.count_nil] at h1 h2 ⊢
        omega
      · intro z hz
        rcases List.mem_or_eq_of_mem_set hz with hz | rfl
        · exact List.mem_or_eq_of_mem_set hz
        · exact .inl (hvar hx)
    obtain ⟨heap', h1, h2, _⟩ := I'.release (total s.heap) le_rfl
    refine ⟨⟨heap', (s.vars.set w .empty).set v x⟩, ?_, h2⟩
    simp only [run, hy, hx, if_neg hvw, h1]; rfl

theorem running_inv {s : State} (h : Running s) : Inv s.vars s.heap [] := by
  induction h with
  | start =>
    refine ⟨fun a => by simp [cnt, owners], ⟨?_, ?_⟩, by simp⟩
    · intro w l d h; simp at h
    · intro d cs h; simp at h
  | call c _ hl hr ih =>
    obtain ⟨s'', h1, h2⟩ := run_inv ih c hl
    rw [hr] at h1
    cases h1
    exact h2

/-- **C85** No call ever follows a pointer to an object that has been destroyed: each call on a variable of the right type returns, after any
calls, no matter which other variables have been destroyed.  In particular `decomposition.lock()` is never null when it is
dereferenced. -/
theorem C85_valid {s : State} (h : Running s) (c : Call) (hc : Legal s c) : ∃ s', run s c = .ok s' := by
  obtain ⟨s', h1, _⟩ := run_inv (running_inv h) c hc
  exact ⟨s', h1⟩

/-- **C85** At any time the objects that have not been destroyed are exactly those that can be reached from a variable. -/
theorem C85_alive {s : State} (h : Running s) (a : ℕ) : alive s.heap a = true ↔ Reaches s a := by
  have I := running_inv h
  rw [alive_iff]
  constructor
  · -- lengths with connections are owned by decompositions, other lengths by lengths with connections
    have up : ∀ b, 0 < cnt s.heap b → (∃ v ∈ s.vars, b ∈ v.owns) ∨ ∃ (c : Cell) (a : ℕ), s.heap[a]? = some c ∧ c.count ≠ 0 ∧ b ∈ c.obj.owns := by
      intro b hb
      rw [I.count] at hb
      have := List.count_pos_iff.mp hb
      simp only [owners, List.append_nil, List.mem_append, List.mem_flatMap] at this
      rcases this with ⟨v, hv, hb⟩ | ⟨c, hc, hb⟩
      · exact .inl ⟨v, hv, hb⟩
      · right
        obtain ⟨a, ha⟩ := List.mem_iff_getElem?.mp hc
        unfold Cell.owns at hb
        split_ifs at hb with h0
        · cases hb
        · exact ⟨c, a, ha, h0, hb⟩
    have hobj : ∀ {a : ℕ} {c : Cell}, s.heap[a]? = some c → (s.heap.map Cell.obj)[a]? = some c.obj := by
      intro a c hc; rw [List.getElem?_map, hc]; rfl
    -- a decomposition is not owned by any object
    have r2 : ∀ d cs, (s.heap.map Cell.obj)[d]? = some (.decomposition cs) → 0 < cnt s.heap d → Reaches s d := by
      intro d cs hd hp
      rcases up d hp with ⟨v, hv, hb⟩ | ⟨⟨n, o⟩, a, ha, h0, hb⟩
      · exact .var hv hb
      · cases o with
        | lengths => cases hb
        | withConnections l e =>
          simp [Obj.owns] at hb; subst hb
          have := (I.typed.1 a d e (hobj ha)).1
          rw [hd] at this; cases this
        | decomposition cs' =>
          obtain ⟨l, hl⟩ := I.typed.2 a cs' (hobj ha) d hb
          rw [hd] at hl; cases hl
    have r1 : ∀ w l d, (s.heap.map Cell.obj)[w]? = some (.withConnections l d) → 0 < cnt s.heap w → Reaches s w := by
      intro w l d hw hp
      rcases up w hp with ⟨v, hv, hb⟩ | ⟨⟨n, o⟩, a, ha, h0, hb⟩
      · exact .var hv hb
      · cases o with
        | lengths => cases hb
        | withConnections l' e =>
          simp [Obj.owns] at hb; subst hb
          have := (I.typed.1 a w e (hobj ha)).1
          rw [hw] at this; cases this
        | decomposition cs' =>
          exact .member (r2 a cs' (hobj ha) (by rw [cnt_of ha]; exact Nat.pos_of_ne_zero h0)) ha hb
    intro hp
    obtain ⟨⟨n, o⟩, hc, h0⟩ := cnt_pos hp
    cases o with
    | withConnections l d => exact r1 a l d (hobj hc) hp
    | decomposition cs => exact r2 a cs (hobj hc) hp
    | lengths =>
      rcases up a hp with ⟨v, hv, hb⟩ | ⟨⟨n', o⟩, a', ha, h0', hb⟩
      · exact .var hv hb
      · have hp' : 0 < cnt s.heap a' := by rw [cnt_of ha]; exact Nat.pos_of_ne_zero h0'
        cases o with
        | lengths => cases hb
        | withConnections l d => exact .member (r1 a' l d (hobj ha) hp') ha hb
        | decomposition cs' => exact .member (r2 a' cs' (hobj ha) hp') ha hb
  · intro hr
    induction hr with
    | var hv ha => exact I.pos_var hv ha
    | member _ hc hb ih => exact I.pos_member hc ih hb

/-- **C85** Nothing leaks: when all the variables have been destroyed, all the objects have been destroyed. -/
theorem C85_leak {s : State} (h : Running s) (hv : s.vars = []) (a : ℕ) : alive s.heap a = false := by
  rw [← Bool.not_eq_true, C85_alive h]
  intro hr
  induction hr with
  | var hm _ => rw [hv] at hm; cases hm
  | member _ _ _ ih => exact ih

/-- **C85** Handles keep the decomposition with all its components, their lengths, and the lengths of the IET that has been decomposed alive. -/
theorem C85_handle {s : State} (h : Running s) {d : ℕ} {k : Option ℕ} (hv : .handle d k ∈ s.vars) :
    alive s.heap d = true ∧ ∃ c cs, s.heap[d]? = some c ∧ c.obj = .decomposition cs ∧ (∀ i, k = some i → i < cs.length) ∧
      ∀ w ∈ cs, alive s.heap w = true ∧ ∃ c l, s.heap[w]? = some c ∧ c.obj = .withConnections l d ∧ alive s.heap l = true := by
  have I := running_inv h
  have hp := I.pos_var hv (a := d) (by simp [Var.owns])
  obtain ⟨cs, h1, h2⟩ : VarTyped (s.heap.map Cell.obj) (.handle d k) := I.vars _ hv
  obtain ⟨n, hn⟩ := cell_of_obj h1
  refine ⟨(alive_iff _ _).mpr hp, _, cs, hn, rfl, h2, ?_⟩
  intro w hw
  have hwp : 0 < cnt s.heap w := I.pos_member hn hp (by simpa [Obj.owns] using hw)
  obtain ⟨l, hl⟩ := I.typed.2 d cs h1 w hw
  obtain ⟨m, hm⟩ := cell_of_obj hl
  exact ⟨(alive_iff _ _).mpr hwp, _, l, hm, rfl, (alive_iff _ _).mpr (I.pos_member hm hwp (by simp [Obj.owns]))⟩

/-- A program: create an IET, decompose it, destroy the IET and its lengths, get a component, destroy the decomposition, and split the
component. -/
def program : List Call :=
  [.makeLengths, .makeIET 0, .makeDecomposition 0, .drop 1, .drop 1, .handle 0 (some 0), .drop 1, .callComponent 0 true]

/-- Running several calls. -/
def runAll (s : State) : List Call → M State
  | [] => .ok s
  | c :: cs => do runAll (← run s c) cs

/-- After this program there are handles for two components of a decomposition which keep the lengths alive. -/
example : runAll ⟨[], []⟩ program =
    .ok ⟨[⟨1, .lengths⟩, ⟨2, .decomposition [2, 2]⟩, ⟨2, .withConnections 0 1⟩], [.handle 1 (some 1), .handle 1 (some 0)]⟩ := by
  decide +kernel

/-- When they are destroyed, nothing is left. -/
example : runAll ⟨[], []⟩ (program ++ [.drop 0, .drop 0]) =
    .ok ⟨[⟨0, .lengths⟩, ⟨0, .decomposition [2, 2]⟩, ⟨0, .withConnections 0 1⟩], []⟩ := by
  decide +kernel

end Verif.Lifetime
