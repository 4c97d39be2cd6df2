import Verif.Proofs.Checks
import Verif.Proofs.Bosh
import Verif.Props.History
import Verif.Props.Boshernitzan
import Verif.Props.Boundary
import Verif.Props.Failures
import Verif.Props.HalfEdges
import Verif.Props.Separatrix

/-!
# C80, C81, C82: disabling checks

The checks that are performed are `Checks.of ndebug noassert nocheck`: `ndebug` is whether the library has been compiled with `NDEBUG`,
`noassert` and `nocheck` are the values of the environment variables LIBINTERVALXT_NOASSERT and LIBINTERVALXT_NOCHECK (`none` if they are
not defined).
-/

namespace Verif

set_option linter.unusedSectionVars false

theorem Ref.eq_of_ok {K : Checks} {α : Type} {x y : M α} (h : Ref K x y) (hx : (∃ r, x = .ok r) ∨ x = .error .fuel) : y = x := by
  rcases h with h | ⟨e, he, h⟩
  · exact h.symm
  · rcases hx with ⟨r, hx⟩ | hx
    · rw [hx] at h; cases h
    · rw [hx] at h
      injection h with h
      subst h
      rcases he with he | he | he | ⟨he, -⟩ <;> cases he

/-! ### C82: the environment variables -/

/-- **C82.** Which checks are performed.  An environment variable has an effect unless it is not defined or its value is, up to surrounding
whitespace, `0`, or `no` or `false` in lower or upper case.  LIBINTERVALXT_NOCHECK disables all checks of the library,
LIBINTERVALXT_NOASSERT only its assertions. -/
theorem C82_variables (ndebug : Bool) (noassert nocheck : Option (List Char)) :
    ((Checks.of ndebug noassert nocheck).arguments = true ↔ Checks.isSet nocheck = false) ∧
    ((Checks.of ndebug noassert nocheck).asserts = true ↔ ndebug = false ∧ Checks.isSet nocheck = false ∧ Checks.isSet noassert = false) ∧
    ((Checks.of ndebug noassert nocheck).std = true ↔ ndebug = false) := by
  simp [Checks.of, and_assoc]

theorem dropWhile_space {l r : List Char} (hl : ∀ c ∈ l, Checks.isSpace c = true) (hr : ∀ c ∈ r.head?, Checks.isSpace c = false) :
    (l ++ r).dropWhile Checks.isSpace = r := by
  induction l with
  | nil =>
    cases r with
    | nil => rfl
    | cons c r => simp [List.dropWhile, hr c (by simp)]
  | cons c l ih =>
    rw [List.cons_append, List.dropWhile_cons_of_pos (hl c (by simp))]
    exact ih fun c hc => hl c (by simp [hc])

/-- Whitespace around a word that does not begin or end with whitespace is removed. -/
theorem trim_eq {pre word post : List Char} (h1 : ∀ c ∈ pre, Checks.isSpace c = true) (h2 : ∀ c ∈ post, Checks.isSpace c = true)
    (h3 : ∀ c ∈ word.head?, Checks.isSpace c = false) (h4 : ∀ c ∈ word.getLast?, Checks.isSpace c = false) :
    Checks.trim (pre ++ word ++ post) = word := by
  unfold Checks.trim
  by_cases hw : word = []
  · subst hw
    have : (pre ++ [] ++ post).dropWhile Checks.isSpace = [] := by
      rw [List.append_nil]
      have := dropWhile_space (l := pre ++ post) (r := []) (by
        intro c hc
        rcases List.mem_append.mp hc with hc | hc
        · exact h1 c hc
        · exact h2 c hc) (by simp)
      rwa [List.append_nil] at this
    rw [this]
    rfl
  · rw [List.append_assoc, dropWhile_space h1 (by
      cases word with
      | nil => exact absurd rfl hw
      | cons c w => simpa using h3), List.reverse_append,
      dropWhile_space (by simpa using h2) (by simpa [List.head?_reverse] using h4), List.reverse_reverse]

/-- Space, tabulator, line feed, carriage return, vertical tabulator and form feed. -/
def space : List Char := [' ', '\t', '\n', '\r', Char.ofNat 11, Char.ofNat 12]

/-- **C82.** A variable that is not defined has no effect; neither has one whose value is `0`, `no`, `false` or the like; any other word has. -/
theorem C82_values : Checks.isSet none = false ∧
    ∀ pre word post : List Char, (∀ c ∈ pre, c ∈ space) → (∀ c ∈ post, c ∈ space) →
      (∀ c ∈ word.head?, c ∉ space) → (∀ c ∈ word.getLast?, c ∉ space) →
      (Checks.isSet (some (pre ++ word ++ post)) = false ↔
        word = ['0'] ∨ word.map Char.toLower = ['n', 'o'] ∨ word.map Char.toLower = ['f', 'a', 'l', 's', 'e']) := by
  refine ⟨rfl, fun pre word post h1 h2 h3 h4 => ?_⟩
  have sp : ∀ c, Checks.isSpace c = true ↔ c ∈ space := fun c => by simp [Checks.isSpace, space]
  have sp' : ∀ c, Checks.isSpace c = false ↔ c ∉ space := fun c => by rw [← sp, Bool.not_eq_true]
  unfold Checks.isSet
  simp only [trim_eq (fun c hc => (sp c).2 (h1 c hc)) (fun c hc => (sp c).2 (h2 c hc)) (fun c hc => (sp' c).2 (h3 c hc))
    (fun c hc => (sp' c).2 (h4 c hc))]
  split
  · simp_all
  · split
    · simp_all
    · split <;> simp_all

example : Checks.isSet (some "False ".toList) = false ∧ Checks.isSet (some " 0".toList) = false ∧ Checks.isSet (some "NO".toList) = false ∧
    Checks.isSet (some "1".toList) = true ∧ Checks.isSet (some "".toList) = true ∧ Checks.isSet (some "00".toList) = true ∧
    Checks.of false none (some "1".toList) = ⟨false, false, true⟩ ∧ Checks.of true none none = ⟨false, true, false⟩ ∧
    Checks.of false (some "yes".toList) none = ⟨false, true, true⟩ ∧ Checks.of false none none = .all := by decide

section sample

variable {T ε : Type} [CommRing T] [LinearOrder T] [IsStrictOrderedRing T] {A : Arith T} {d : ℕ} {c : T →+ (Fin d → ℚ)}

/-! ### C80: nothing else depends on the checks -/

/-- **C80.** Every call on every IET has the same effect no matter which checks are performed. -/
theorem C80_call (H : LawfulLengths (SLengths.ops A) c ε) {L : PPL} (hL : L.Lawful) {w : World (SLengths T) T} (h : Reachable H L w)
    (fuel : ℕ) (op : Op) (ndebug : Bool) (noassert nocheck : Option (List Char)) :
    op.execK (.of ndebug noassert nocheck) L (SLengths.opsK (.of ndebug noassert nocheck) A) fuel w =
      op.exec L (SLengths.ops A) fuel w := by
  refine (Op.exec_ref (SLengths.ops_ref _ A) L fuel op w).eq_of_ok ?_
  rcases C15_no_error H hL h fuel op with ⟨w', h1⟩ | ⟨h1, -⟩
  · exact Or.inl ⟨w', h1⟩
  · exact Or.inr h1

/-- **C80.** The same for any number of calls. -/
theorem C80_calls (H : LawfulLengths (SLengths.ops A) c ε) {L : PPL} (hL : L.Lawful) {w : World (SLengths T) T} (h : Reachable H L w)
    (fuel : ℕ) (ops : List Op) (ndebug : Bool) (noassert nocheck : Option (List Char)) :
    ops.foldlM (fun w op => op.execK (.of ndebug noassert nocheck) L (SLengths.opsK (.of ndebug noassert nocheck) A) fuel w) w =
      ops.foldlM (fun w op => op.exec L (SLengths.ops A) fuel w) w := by
  induction ops generalizing w with
  | nil => rfl
  | cons op ops ih =>
    simp only [List.foldlM_cons]
    rw [C80_call H hL h]
    cases h1 : op.exec L (SLengths.ops A) fuel w with
    | error e => rfl
    | ok w' => exact ih (.step fuel op h h1)

/-- **C80.** What the calls on an IET return does not depend on the checks either. -/
theorem C80_results (H : LawfulLengths (SLengths.ops A) c ε) {L : PPL} (hL : L.Lawful) {w : World (SLengths T) T} (h : Reachable H L w)
    {E : IET T} (hE : E ∈ w.pieces) (ndebug : Bool) (noassert nocheck : Option (List Char)) :
    (∀ fuel limit, E.induceK (.of ndebug noassert nocheck) L (SLengths.opsK (.of ndebug noassert nocheck) A) fuel limit w.lengths =
      E.induce L (SLengths.ops A) fuel limit w.lengths) ∧
    E.zorichInduction (SLengths.opsK (.of ndebug noassert nocheck) A) w.lengths = E.zorichInduction (SLengths.ops A) w.lengths ∧
    E.reduceK (.of ndebug noassert nocheck) (SLengths.opsK (.of ndebug noassert nocheck) A) w.lengths =
      E.reduce (SLengths.ops A) w.lengths ∧
    E.safInvariantK (.of ndebug noassert nocheck) (SLengths.opsK (.of ndebug noassert nocheck) A) w.lengths =
      E.safInvariant (SLengths.ops A) w.lengths ∧
    E.boshernitzanNoPeriodicTrajectoryK (.of ndebug noassert nocheck) L (SLengths.opsK (.of ndebug noassert nocheck) A) w.lengths =
      E.boshernitzanNoPeriodicTrajectory L (SLengths.ops A) w.lengths := by
  obtain ⟨i, hi, rfl⟩ := List.getElem_of_mem hE
  have hi' : w.pieces[i]? = some w.pieces[i] := List.getElem?_eq_getElem hi
  have bind_ok : ∀ {α β : Type} {x : M α} {f : α → M β}, (∃ r, x >>= f = .ok r) ∨ x >>= f = .error .fuel →
      (∀ a, f a ≠ .error .fuel) → (∃ r, x = .ok r) ∨ x = .error .fuel := by
    intro α β x f h hf
    cases x with
    | error e => right; rcases h with ⟨r, h⟩ | h <;> simpa using h
    | ok a => exact Or.inl ⟨a, rfl⟩
  have key : ∀ (fuel : ℕ) (op : Op), op.index = i →
      (∃ r, op.call L (SLengths.ops A) fuel w.pieces[i] w.lengths = .ok r) ∨
        op.call L (SLengths.ops A) fuel w.pieces[i] w.lengths = .error .fuel := by
    intro fuel op hop
    have h1 := C15_no_error H hL h fuel op
    simp only [Op.exec, hop, hi'] at h1
    refine bind_ok (h1.imp (fun h => h) (fun h => h.1)) ?_
    rintro ⟨a, b, c⟩ h
    cases h
  have r := SLengths.ops_ref (.of ndebug noassert nocheck) A
  refine ⟨fun fuel limit => ?_, ?_, ?_, ?_, ?_⟩
  · rw [← IET.induceK_all]
    refine (IET.induce_ref r L fuel limit _ _).eq_of_ok ?_
    rw [IET.induceK_all]
    exact bind_ok (key fuel (.induce i limit) rfl) (by rintro ⟨a, b, c⟩ h; cases h)
  · exact (IET.zorichInduction_ref r _ _).eq_of_ok (bind_ok (key 0 (.zorichInduction i) rfl) (by rintro ⟨a, b, c⟩ h; cases h))
  · rw [← IET.reduceK_all]
    refine (IET.reduce_ref r _ _).eq_of_ok ?_
    rw [IET.reduceK_all]
    exact bind_ok (key 0 (.reduce i) rfl) (by rintro ⟨a, b⟩ h; cases h)
  · rw [← IET.safInvariantK_all]
    refine (IET.safInvariant_ref r _ _).eq_of_ok ?_
    rw [IET.safInvariantK_all]
    exact bind_ok (key 0 (.safInvariant i) rfl) (by rintro ⟨a, b⟩ h; cases h)
  · rw [← IET.boshernitzanNoPeriodicTrajectoryK_all]
    refine (IET.boshernitzanNoPeriodicTrajectory_ref r L _ _).eq_of_ok ?_
    rw [IET.boshernitzanNoPeriodicTrajectoryK_all]
    exact bind_ok (key 0 (.boshernitzanNoPeriodicTrajectory i) rfl) (by rintro ⟨a, b⟩ h; cases h)

/-- **C80.** Creating a decomposition, and the steps of a decomposition.  (For a step without limit, unless the internal limit overflows.) -/
theorem C80_step (H : LawfulLengths (SLengths.ops A) c ε) {L : PPL} (hL : L.Lawful) {E : IET T} {s : SLengths T} (hE : H.Ok E s)
    {D : Decomp (SLengths T) T} {steps : List DStep} (h : DReach L (SLengths.ops A) E s D steps) (ndebug : Bool)
    (noassert nocheck : Option (List Char)) :
    Decomp.makeK (.of ndebug noassert nocheck) (SLengths.opsK (.of ndebug noassert nocheck) A) E s = Decomp.make (SLengths.ops A) E s ∧
    ∀ i < D.comps.length, ∀ fuel limit,
      D.decompositionStepK (.of ndebug noassert nocheck) L (SLengths.opsK (.of ndebug noassert nocheck) A) fuel limit i =
        D.decompositionStep L (SLengths.ops A) fuel limit i ∨
      (limit = -1 ∧ D.decompositionStep L (SLengths.ops A) fuel limit i = .error .ub) := by
  have r := SLengths.ops_ref (.of ndebug noassert nocheck) A
  refine ⟨?_, fun i hi fuel limit => ?_⟩
  · obtain ⟨D, h1, -⟩ := C57_make H L hE
    exact (Decomp.make_ref r E s).eq_of_ok (Or.inl ⟨D, h1⟩)
  · have h2 := Decomp.decompositionStep_ref r L fuel limit i D
    rw [Decomp.decompositionStepK_all] at h2
    rcases C57_step H hL hE h hi fuel limit with ⟨step, D', h1⟩ | ⟨hl, h1 | ⟨h1, -⟩⟩
    · exact Or.inl (h2.eq_of_ok (Or.inl ⟨_, h1⟩))
    · exact Or.inl (h2.eq_of_ok (Or.inr h1))
    · exact Or.inr ⟨hl, h1⟩

/-- **C80.** `decompose()`. -/
theorem C80_decompose (H : LawfulLengths (SLengths.ops A) c ε) {L : PPL} (hL : L.Lawful) {E : IET T} {s : SLengths T} (hE : H.Ok E s)
    {D : Decomp (SLengths T) T} {steps : List DStep} (h : DReach L (SLengths.ops A) E s D steps) (ndebug : Bool)
    (noassert nocheck : Option (List Char)) (target : Comp T → Bool) (limit : ℤ) (fuel : ℕ) :
    D.decomposeK (.of ndebug noassert nocheck) L (SLengths.opsK (.of ndebug noassert nocheck) A) target limit fuel =
      D.decompose L (SLengths.ops A) target limit fuel ∨
    (limit = -1 ∧ D.decompose L (SLengths.ops A) target limit fuel = .error .ub) := by
  have r := SLengths.ops_ref (.of ndebug noassert nocheck) A
  have h2 := Decomp.decompose_ref r L target limit fuel D
  rw [Decomp.decomposeK_all] at h2
  rcases C57_decompose H hL hE h target limit fuel with ⟨b, D', h1⟩ | h1 | h1
  · exact Or.inl (h2.eq_of_ok (Or.inl ⟨_, h1⟩))
  · exact Or.inl (h2.eq_of_ok (Or.inr h1))
  · exact Or.inr h1

/-- **C80.** What can be read from components and half edges. -/
theorem C80_components (H : LawfulLengths (SLengths.ops A) c ε) {L : PPL} (hL : L.Lawful) {E : IET T} {s : SLengths T} (hE : H.Ok E s)
    {D : Decomp (SLengths T) T} {steps : List DStep} (h : DReach L (SLengths.ops A) E s D steps) (ndebug : Bool)
    (noassert nocheck : Option (List Char)) :
    (∀ i < D.comps.length, D.perimeterK (.of ndebug noassert nocheck) i = D.perimeter i) ∧
    ∀ g ∈ D.halfEdges, D.nextK (.of ndebug noassert nocheck) g = D.next g ∧ D.previousK (.of ndebug noassert nocheck) g = D.previous g ∧
      D.componentK (.of ndebug noassert nocheck) g = D.component g ∧ D.separatrixK (.of ndebug noassert nocheck) g = D.separatrix g ∧
      ∀ g' ∈ D.halfEdges, g.eqK (.of ndebug noassert nocheck) g' = g.eq g' := by
  refine ⟨fun i hi => ?_, fun g hg => ?_⟩
  · obtain ⟨p, _, _, _, h1, -⟩ := C50_perimeter H hL hE h hi
    have h2 := Decomp.perimeter_ref (K := .of ndebug noassert nocheck) D i
    rw [Decomp.perimeterK_all] at h2
    exact h2.eq_of_ok (Or.inl ⟨_, h1⟩)
  · have hg' : ∃ i < D.comps.length, ∃ t b, D.topContour i = .ok t ∧ D.bottomContour i = .ok b ∧ (g ∈ t ∨ g ∈ b) := by
      simp only [Decomp.halfEdges, List.mem_flatMap] at hg
      obtain ⟨q, hq, hg⟩ := hg
      have hq' := List.mem_zipIdx_iff_getElem?.1 hq
      have hc : D.comp q.2 = .ok q.1 := by simp only [Decomp.comp, hq']
      refine ⟨q.2, (List.getElem?_eq_some_iff.1 hq').1, q.1.topContour.map (fun l => ⟨q.2, l, true⟩),
        q.1.bottomContour.map (fun l => ⟨q.2, l, false⟩), ?_, ?_, List.mem_append.1 hg⟩
      · simp only [Decomp.topContour, hc, ok_bind]; rfl
      · simp only [Decomp.bottomContour, hc, ok_bind]; rfl
    obtain ⟨i, hi, t, b, ht, hb, hg'⟩ := hg'
    obtain ⟨t', b', e1, e2, -, -, -, -, w⟩ := C44_walk H hL hE h hi
    rw [ht] at e1
    rw [hb] at e2
    injection e1 with e1
    injection e2 with e2
    subst e1 e2
    obtain ⟨l, hl, k, hk⟩ : ∃ l, (l = t ∨ l = b) ∧ ∃ k, l[k]? = some g := by
      rcases hg' with hg' | hg'
      · exact ⟨t, Or.inl rfl, List.getElem?_of_mem hg'⟩
      · exact ⟨b, Or.inr rfl, List.getElem?_of_mem hg'⟩
    obtain ⟨w1, w2, w3⟩ := w l hl k g hk
    obtain ⟨_, -, -, hs⟩ := C53_separatrix H hL hE h (ι := AddMonoidHom.id T) (fun _ _ h => h)
    obtain ⟨_, _, r, -, -, hr, -⟩ := hs g hg
    have h1 := Decomp.next_ref (K := .of ndebug noassert nocheck) D g
    have h2 := Decomp.previous_ref (K := .of ndebug noassert nocheck) D g
    have h3 := Decomp.component_ref (K := .of ndebug noassert nocheck) D g
    have h4 := Decomp.separatrix_ref (K := .of ndebug noassert nocheck) D g
    rw [Decomp.nextK_all] at h1
    rw [Decomp.previousK_all] at h2
    rw [Decomp.componentK_all] at h3
    rw [Decomp.separatrixK_all] at h4
    refine ⟨h1.eq_of_ok (Or.inl ⟨_, w2⟩), h2.eq_of_ok (Or.inl ⟨_, w3⟩), h3.eq_of_ok (Or.inl ⟨_, w1⟩), h4.eq_of_ok (Or.inl ⟨_, hr⟩),
      fun g' hg' => ?_⟩
    obtain ⟨b, hb, -⟩ := C45_halfEdge H hL hE h hg hg'
    have h5 : Ref (.of ndebug noassert nocheck) (g.eq g') (g.eqK (.of ndebug noassert nocheck) g') := by
      rw [← HalfEdge.eqK_all]
      exact Ref.ite (Ref.bind (Ref.assert_ok _ _) fun _ => Ref.refl _) (Ref.refl _)
    exact h5.eq_of_ok (Or.inl ⟨_, hb⟩)

/-- **C80.** `inject()` and `iet()` of components: if they return, then they return the same without checks. -/
theorem C80_inject (D : Decomp (SLengths T) T) (ndebug : Bool) (noassert nocheck : Option (List Char)) :
    (∀ g left right r, D.inject g left right = .ok r → D.injectK (.of ndebug noassert nocheck) g left right = .ok r) ∧
    ∀ i r, D.iet (SLengths.ops A) A i = .ok r →
      D.ietK (.of ndebug noassert nocheck) (SLengths.opsK (.of ndebug noassert nocheck) A) A i = .ok r := by
  refine ⟨fun g left right r h => ?_, fun i r h => ?_⟩
  · have h1 := Decomp.inject_ref (K := .of ndebug noassert nocheck) D g left right
    rw [Decomp.injectK_all] at h1
    exact (h1.eq_of_ok (Or.inl ⟨r, h⟩)).trans h
  · have h1 := Decomp.iet_ref (SLengths.ops_ref (.of ndebug noassert nocheck) A) A i D
    rw [Decomp.ietK_all] at h1
    exact (h1.eq_of_ok (Or.inl ⟨r, h⟩)).trans h

/-- The constructor of IETs: the assertions are all there is.  Without them it accepts any labels. -/
theorem C80_construct (K : Checks) (h : K.asserts = false) (O : LengthsOps (SLengths T) T) (top bottom : List Label) (s : SLengths T) :
    IET.mkK K O top bottom s = .ok (IET.fresh top bottom) := by
  simp only [IET.mkK, h, assertK_false, ok_bind]
  rfl

/-! ### C81: the checks of arguments -/

/-- **C81.** `boshernitzanNoSaddleConnection` does not depend on `NDEBUG` and LIBINTERVALXT_NOASSERT.  (It does depend on
LIBINTERVALXT_NOCHECK, see `C81_refuted`.) -/
theorem C81_noassert_partial (H : LawfulLengths (SLengths.ops A) c ε) {L : PPL} (hL : L.Lawful) {E : IET T} {s : SLengths T} (h : H.Ok E s)
    (ndebug : Bool) (noassert : Option (List Char)) {nocheck : Option (List Char)} (hK : Checks.isSet nocheck = false) :
    E.boshernitzanNoSaddleConnectionK (.of ndebug noassert nocheck) L (SLengths.opsK (.of ndebug noassert nocheck) A) s =
      E.boshernitzanNoSaddleConnection L (SLengths.ops A) s ∧
    ∀ t ∈ E.top, ∀ b ∈ E.bottom,
      E.boshernitzanNoSaddleConnection₂K (.of ndebug noassert nocheck) L (SLengths.opsK (.of ndebug noassert nocheck) A) t b s =
        E.boshernitzanNoSaddleConnection₂ L (SLengths.ops A) t b s := by
  have r := SLengths.ops_ref (.of ndebug noassert nocheck) A
  have hK' : (Checks.of ndebug noassert nocheck).arguments = true := by simp [Checks.of, hK]
  obtain ⟨h1, h2, h3, h4⟩ := C21_returns H hL h
  refine ⟨?_, fun t ht b hb => ?_⟩
  · have h5 := IET.boshernitzanNoSaddleConnection_ref r hK' L E s
    rw [IET.boshernitzanNoSaddleConnectionK_all] at h5
    exact h5.eq_of_ok (Or.inl h1)
  · have h5 := IET.boshernitzanNoSaddleConnection₂_ref r hK' L E t b s
    rw [IET.boshernitzanNoSaddleConnection₂K_all] at h5
    have cases_last : ∀ (l : List Label) (a : Label), a ∈ l → a ∈ l.reverse.tail ∨ l.getLast? = some a := by
      intro l a ha
      rw [← List.mem_reverse] at ha
      rw [← List.head?_reverse]
      cases hr : l.reverse with
      | nil => rw [hr] at ha; cases ha
      | cons x xs =>
        rw [hr] at ha
        rcases List.mem_cons.1 ha with rfl | ha
        · exact Or.inr rfl
        · exact Or.inl ha
    have inv : E.boshernitzanNoSaddleConnection₂ L (SLengths.ops A) t b s = .error .invalidArgument →
        E.boshernitzanNoSaddleConnection₂K (.of ndebug noassert nocheck) L (SLengths.opsK (.of ndebug noassert nocheck) A) t b s =
        E.boshernitzanNoSaddleConnection₂ L (SLengths.ops A) t b s := by
      intro h6
      rcases h5 with h5 | ⟨e, he, h5⟩
      · exact h5.symm
      · rw [h6] at h5
        injection h5 with h5
        subst h5
        rcases he with he | he | he | ⟨-, he⟩
        · cases he
        · cases he
        · cases he
        · rw [hK'] at he; cases he
    rcases cases_last _ _ ht with ht' | ht'
    · rcases cases_last _ _ hb with hb' | hb'
      · exact h5.eq_of_ok (Or.inl (h2 t ht' b hb'))
      · exact inv (h4 t ht' b hb')
    · exact inv (h3 t b ht')

/-- With LIBINTERVALXT_NOCHECK, the test is about the left end points of the intervals. -/
theorem saddle_nocheck (H : LawfulLengths (SLengths.ops A) c ε) {L : PPL} (hL : L.Lawful) {E : IET T} {s : SLengths T} (h : H.Ok E s)
    {K : Checks} (hK : K.arguments = false) {t b : Label} (ht : t ∈ E.top) (hb : b ∈ E.bottom) :
    ∃ r, E.boshernitzanNoSaddleConnection₂K K L (SLengths.opsK K A) t b s = .ok r ∧
      (r = true ↔ ¬ (c (off (H.len s) E.top t - off (H.len s) E.bottom b) = 0) ∧
        ¬ ∃ x : List ℚ, x.length = E.top.length ∧ (∀ v ∈ x, 0 ≤ v) ∧
          ∀ i < d, dot (E.top.map (fun a => coefAt c i ((H.abs E s).transl a))) x =
            coefAt c i (off (H.len s) E.top t - off (H.len s) E.bottom b)) := by
  have r := SLengths.ops_ref K A
  obtain ⟨q, h1, h2⟩ := saddleTest_spec H hL h (off (H.len s) E.top t - off (H.len s) E.bottom b)
  refine ⟨q, Eq.trans ?_ h1, h2⟩
  have e1 : E.labelToCoefficients (SLengths.opsK K A) s = E.labelToCoefficients (SLengths.ops A) s := by
    unfold IET.labelToCoefficients IET.coefficients
    rw [r.coefficients]
  have e2 := IET.translation_ref (K := K) E t b (E.top.map (fun a => (a, List.ofFn (c (H.len s a)))))
  rw [IET.translationK_all] at e2
  have e3 : E.boshernitzanSaddleConnectionValuesK K (SLengths.opsK K A) t b s =
      .ok (List.ofFn (c (off (H.len s) E.top t - off (H.len s) E.bottom b))) := by
    unfold IET.boshernitzanSaddleConnectionValuesK IET.endPointK
    simp only [hK, Bool.false_eq_true, if_false, if_pos ht, if_pos hb, e1, labelToCoefficients_spec H h, pure, Except.pure, ok_bind]
    rw [e2.eq_of_ok (Or.inl ⟨_, translation_spec H h _ _⟩), translation_spec H h]
    simp only [ok_bind]
    rw [ofFn_neg]
  have e4 := IET.boshernitzanEquations_ref r E s
  rw [IET.boshernitzanEquationsK_all] at e4
  have e5 := e4.eq_of_ok (Or.inl ⟨_, boshernitzanEquations_spec H h⟩)
  unfold IET.boshernitzanNoSaddleConnection₂K
  rw [e3, e5]
  simp only [ok_bind]
  split
  · rfl
  · rw [boshernitzanEquations_spec H h]
    simp only [ok_bind]
    obtain ⟨S, g1, -⟩ := ofEquations_spec
      ((List.range d).map (fun i => E.top.map (fun a => coefAt c i ((H.abs E s).transl a))))
      (List.ofFn (c (off (H.len s) E.top t - off (H.len s) E.bottom b))) (by simp)
    have e6 := Subspace.ofEquations_ref K ((List.range d).map (fun i => E.top.map (fun a => coefAt c i ((H.abs E s).transl a))))
      (List.ofFn (c (off (H.len s) E.top t - off (H.len s) E.bottom b)))
    rw [Subspace.ofEquationsK_all] at e6
    rw [e6.eq_of_ok (Or.inl ⟨S, g1⟩)]

/-- With LIBINTERVALXT_NOCHECK, `boshernitzanNoSaddleConnection()` is false for every IET: it compares the left end points of the leftmost
intervals, which are always equal. -/
theorem C81_nocheck (H : LawfulLengths (SLengths.ops A) c ε) {L : PPL} (hL : L.Lawful) {E : IET T} {s : SLengths T} (h : H.Ok E s)
    (ndebug : Bool) (noassert : Option (List Char)) {nocheck : Option (List Char)} (hK : Checks.isSet nocheck = true) :
    E.boshernitzanNoSaddleConnectionK (.of ndebug noassert nocheck) L (SLengths.opsK (.of ndebug noassert nocheck) A) s = .ok false := by
  have hK' : (Checks.of ndebug noassert nocheck).arguments = false := by simp [Checks.of, hK]
  generalize Checks.of ndebug noassert nocheck = K at hK'
  unfold IET.boshernitzanNoSaddleConnectionK
  split
  · rfl
  rename_i hs
  have hv := h.valid
  have hperm : E.bottom.Perm E.top := hv.perm
  have first : ∀ l : List Label, 2 ≤ l.length → ∃ a rest, l = a :: rest ∧ a ∈ l.reverse.tail := by
    intro l hl
    match l, hl with
    | a :: b :: rest, _ =>
      refine ⟨a, b :: rest, rfl, ?_⟩
      rw [List.reverse_cons]
      cases hr : (b :: rest).reverse with
      | nil => simp at hr
      | cons x xs => simp
  have hs' : 2 ≤ E.top.length := by
    have : E.size = E.top.length := rfl
    omega
  obtain ⟨t, ts, ht, ht'⟩ := first E.top hs'
  obtain ⟨b, bs, hb, hb'⟩ := first E.bottom (by rw [hperm.length_eq]; exact hs')
  have key : ∀ t b, ∃ r, (t ∈ E.top.reverse.tail → b ∈ E.bottom.reverse.tail →
      E.boshernitzanNoSaddleConnection₂K K L (SLengths.opsK K A) t b s = .ok r ∧
      (off (H.len s) E.top t - off (H.len s) E.bottom b = 0 → r = false)) := by
    intro t b
    by_cases h1 : t ∈ E.top.reverse.tail ∧ b ∈ E.bottom.reverse.tail
    · obtain ⟨r, h2, h3⟩ := saddle_nocheck H hL h hK' (t := t) (b := b) (by simpa using List.mem_of_mem_tail h1.1)
        (by simpa using List.mem_of_mem_tail h1.2)
      refine ⟨r, fun _ _ => ⟨h2, fun h4 => ?_⟩⟩
      rw [h4] at h3
      by_contra hr
      exact (h3.1 (by simpa using hr)).1 (map_zero c)
    · exact ⟨true, fun h2 h3 => absurd ⟨h2, h3⟩ h1⟩
  choose r hr using key
  rw [allM_spec _ (fun t => E.bottom.reverse.tail.all (fun b => r t b))]
  · congr 1
    rw [List.all_eq_false]
    refine ⟨t, ht', ?_⟩
    rw [Bool.not_eq_true, List.all_eq_false]
    refine ⟨b, hb', ?_⟩
    rw [Bool.not_eq_true]
    refine (hr t b ht' hb').2 ?_
    rw [ht, hb]
    simp [off]
  · intro t ht
    exact allM_spec _ _ _ fun b hb => (hr t b ht hb).1

/-- With LIBINTERVALXT_NOCHECK, the answer for two labels is about the left end points: when it is true, then the orbit of the left end
point of `b` in the bottom never hits the left end point of `t` in the top. -/
theorem C81_nocheck_left {P : Type} [CommRing P] [LinearOrder P] [IsStrictOrderedRing P]
    (H : LawfulLengths (SLengths.ops A) c ε) {L : PPL} (hL : L.Lawful) {E : IET T} {s : SLengths T} (h : H.Ok E s)
    (ndebug : Bool) (noassert : Option (List Char)) {nocheck : Option (List Char)} (hK : Checks.isSet nocheck = true)
    {t b : Label} (ht : t ∈ E.top) (hb : b ∈ E.bottom) {ι : T →+ P} (hι : StrictMono ι) :
    ∃ r, E.boshernitzanNoSaddleConnection₂K (.of ndebug noassert nocheck) L (SLengths.opsK (.of ndebug noassert nocheck) A) t b s = .ok r ∧
      (r = true → ∀ n, ¬ Iter ((H.abs E s).map ι).Maps n (ι (off (H.len s) E.bottom b)) (ι (off (H.len s) E.top t))) := by
  have hv := h.valid
  have hK' : (Checks.of ndebug noassert nocheck).arguments = false := by simp [Checks.of, hK]
  obtain ⟨r, h1, h2⟩ := saddle_nocheck H hL h hK' ht hb
  refine ⟨r, h1, fun hr n hn => ?_⟩
  obtain ⟨-, h4⟩ := h2.mp hr
  obtain ⟨Ls, m1, m2⟩ := iter_translations n hn
  rw [sum_map_transl, ← map_add] at m2
  have m3 := hι.injective m2
  refine h4 ⟨counts E.top Ls, by simp [counts], counts_nonneg _ _, fun i _ => ?_⟩
  refine (dot_counts hv.nodup (fun a => coefAt c i ((H.abs E s).transl a)) Ls m1).trans ?_
  rw [← sum_map_hom]
  congr 1
  rw [m3]; ring

end sample

/-- Three intervals of lengths `1`, `√2` and `1 + √2` that are rearranged in the opposite order. -/
def Examples.sideIET : IET Examples.Q2 := .fresh [0, 1, 2] [2, 1, 0]
def Examples.sideState : SLengths Examples.Q2 := ⟨[], [⟨1, 0⟩, ⟨0, 1⟩, ⟨1, 1⟩]⟩

theorem Examples.side_ok : Examples.hQ2.Ok Examples.sideIET Examples.sideState := sample_ok _ [0, 1, 2] [2, 1, 0] _ (by decide)

/-- **C81** is not true of the code when LIBINTERVALXT_NOCHECK is set.  For the three intervals, the right end of the interval `1` in the top
is the right end of the interval `2` in the bottom, so `boshernitzanNoSaddleConnection(1, 2)` is false.  With LIBINTERVALXT_NOCHECK it is
true.  For the rotation with lengths `1` and `√2`, `boshernitzanNoSaddleConnection()` is true.  With LIBINTERVALXT_NOCHECK it is false. -/
theorem C81_refuted {nocheck : Option (List Char)} (hK : Checks.isSet nocheck = true) (ndebug : Bool) (noassert : Option (List Char)) :
    (∀ L : PPL, L.Lawful →
      (Examples.hQ2.abs Examples.sideIET Examples.sideState).rightTop 1 = (Examples.hQ2.abs Examples.sideIET Examples.sideState).rightBottom 2 ∧
      Examples.sideIET.boshernitzanNoSaddleConnection₂ L (SLengths.ops Examples.q2Arith) 1 2 Examples.sideState = .ok false ∧
      Examples.sideIET.boshernitzanNoSaddleConnection₂K (.of ndebug noassert nocheck) L
        (SLengths.opsK (.of ndebug noassert nocheck) Examples.q2Arith) 1 2 Examples.sideState = .ok true) ∧
    Examples.rotIET.boshernitzanNoSaddleConnection PPL.ideal (SLengths.ops Examples.q2Arith) Examples.rotState = .ok true ∧
    Examples.rotIET.boshernitzanNoSaddleConnectionK (.of ndebug noassert nocheck) PPL.ideal
        (SLengths.opsK (.of ndebug noassert nocheck) Examples.q2Arith) Examples.rotState = .ok false := by
  refine ⟨fun L hL => ⟨by decide, ?_, ?_⟩, ?_, C81_nocheck Examples.hQ2 PPL.ideal_lawful Examples.rot_ok ndebug noassert hK⟩
  · obtain ⟨r, h1, h2⟩ := boshernitzanNoSaddleConnection₂_spec Examples.hQ2 hL Examples.side_ok (t := 1) (b := 2)
      (t' := 2) (b' := 1) (k₁ := [0]) (k₂ := []) (l₁ := []) (l₂ := [0]) rfl rfl
    rw [h1]
    cases r with
    | false => rfl
    | true =>
      refine absurd ?_ (h2.1 rfl).1
      have hδ : off (Examples.hQ2.len Examples.sideState) Examples.sideIET.top 2 -
        off (Examples.hQ2.len Examples.sideState) Examples.sideIET.bottom 1 = 0 := by decide
      rw [hδ, map_zero]
  · obtain ⟨r, h1, h2⟩ := saddle_nocheck Examples.hQ2 hL Examples.side_ok (K := .of ndebug noassert nocheck) (by simp [Checks.of, hK])
      (t := 1) (b := 2) (by decide) (by decide)
    rw [h1]
    congr 1
    rw [h2]
    have hδ : off (Examples.hQ2.len Examples.sideState) Examples.sideIET.top 1 -
        off (Examples.hQ2.len Examples.sideState) Examples.sideIET.bottom 2 = ⟨1, 0⟩ := by decide
    rw [hδ]
    constructor
    · intro h
      have := congrFun h 0
      simp [Examples.q2Coef] at this
    · rintro ⟨x, g1, g2, g3⟩
      match x, g1 with
      | [x0, x1, x2], _ =>
        have t0 : (Examples.hQ2.abs Examples.sideIET Examples.sideState).transl 0 = ⟨1, 2⟩ := by decide
        have t1 : (Examples.hQ2.abs Examples.sideIET Examples.sideState).transl 1 = ⟨0, 1⟩ := by decide
        have t2 : (Examples.hQ2.abs Examples.sideIET Examples.sideState).transl 2 = ⟨-1, -1⟩ := by decide
        have e : ∀ i, ([0, 1, 2] : List Label).map (fun a => coefAt Examples.q2Coef i
            ((Examples.hQ2.abs Examples.sideIET Examples.sideState).transl a)) =
            [coefAt Examples.q2Coef i ⟨1, 2⟩, coefAt Examples.q2Coef i ⟨0, 1⟩, coefAt Examples.q2Coef i ⟨-1, -1⟩] := by
          intro i
          rw [List.map_cons, List.map_cons, List.map_cons, List.map_nil]
          erw [t0, t1, t2]
        have h5 : dot [1, 0, -1] [x0, x1, x2] = 1 := by
          have : dot (([0, 1, 2] : List Label).map (fun a => coefAt Examples.q2Coef 0
            ((Examples.hQ2.abs Examples.sideIET Examples.sideState).transl a))) [x0, x1, x2] = coefAt Examples.q2Coef 0 ⟨1, 0⟩ :=
            g3 0 (by decide)
          rw [e] at this
          simpa [coefAt, Examples.q2Coef] using this
        have h6 : dot [2, 1, -1] [x0, x1, x2] = 0 := by
          have : dot (([0, 1, 2] : List Label).map (fun a => coefAt Examples.q2Coef 1
            ((Examples.hQ2.abs Examples.sideIET Examples.sideState).transl a))) [x0, x1, x2] = coefAt Examples.q2Coef 1 ⟨1, 0⟩ :=
            g3 1 (by decide)
          rw [e] at this
          simpa [coefAt, Examples.q2Coef] using this
        have p0 : 0 ≤ x0 := g2 x0 (by simp)
        have p1 : 0 ≤ x1 := g2 x1 (by simp)
        simp [dot] at h5 h6
        linarith
  · have : Examples.rotIET.boshernitzanNoSaddleConnection PPL.ideal (SLengths.ops Examples.q2Arith) Examples.rotState =
        IET.allM (fun t => IET.allM (fun b => Examples.rotIET.boshernitzanNoSaddleConnection₂ PPL.ideal (SLengths.ops Examples.q2Arith)
          t b Examples.rotState) [1]) [0] := rfl
    rw [this]
    simp only [IET.allM, Examples.rot_no_saddle, ok_bind]
    rfl

/-! ### Examples -/

/-- A call on an IET whose lengths are integers, with all checks disabled. -/
example (L : PPL) (hL : L.Lawful) (fuel : ℕ) (op : Op) :
    op.execK (.of true (some []) (some "1".toList)) L (SLengths.opsK (.of true (some []) (some "1".toList)) intArith) fuel
        ⟨[Examples.intIET], Examples.intState⟩ =
      op.exec L (SLengths.ops intArith) fuel ⟨[Examples.intIET], Examples.intState⟩ :=
  C80_call Examples.hInt hL (Examples.sample_reachable _ _ Examples.int_ok) fuel op _ _ _

/-- The decomposition of an IET over `ℤ[√2]`, with all checks disabled. -/
example (L : PPL) (hL : L.Lawful) (target : Comp Examples.Q2 → Bool) (fuel : ℕ) {D : Decomp (SLengths Examples.Q2) Examples.Q2}
    (h : Decomp.make (SLengths.ops Examples.q2Arith) Examples.q2IET Examples.q2State = .ok D) :
    D.decomposeK (.of true none (some "1".toList)) L (SLengths.opsK (.of true none (some "1".toList)) Examples.q2Arith) target 3 fuel =
      D.decompose L (SLengths.ops Examples.q2Arith) target 3 fuel := by
  rcases C80_decompose Examples.hQ2 hL Examples.q2_ok (.init h) true none (some "1".toList) target 3 fuel with h | ⟨h, -⟩
  · exact h
  · cases h

/-- The constructor rejects repeated labels only while assertions are enabled. -/
example : IET.mkK .all (SLengths.ops intArith) [0, 0] [0, 0] Examples.intState = .error .assertFailed ∧
    IET.mkK (.of false none (some "1".toList)) (SLengths.ops intArith) [0, 0] [0, 0] Examples.intState =
      .ok (IET.fresh [0, 0] [0, 0]) :=
  ⟨by rw [IET.mkK_all]; decide, C80_construct _ rfl _ _ _ _⟩

end Verif
