import Verif.Model.Heap
import Verif.Props.Rounds
import Verif.Props.Equality
import Verif.ExamplesDecomp

/-!
# Which objects influence each other
-/

namespace Verif

set_option linter.unusedSectionVars false

variable {T : Type} [CommRing T] [LinearOrder T] [IsStrictOrderedRing T]

/-- `HeapRun L A ok ops h h'`: making the calls `ops` one after the other in `h`, all of them return, the state is `h'` in the end, and
`ok` holds at each call. -/
inductive HeapRun (L : PPL) (A : Arith T) (ok : Heap T → HeapOp T → Prop) : List (HeapOp T) → Heap T → Heap T → Prop
  | nil {h : Heap T} : HeapRun L A ok [] h h
  | cons {h h' h'' : Heap T} {ops : List (HeapOp T)} (fuel : ℕ) (op : HeapOp T) : ok h op → op.exec L A fuel h = .ok h' →
      HeapRun L A ok ops h' h'' → HeapRun L A ok (op :: ops) h h''

/-- All objects refer to existing lengths. -/
def Heap.Closed (h : Heap T) : Prop := (∀ e ∈ h.iets, e.2 < h.cells.length) ∧ ∀ D ∈ h.decomps, D.lengths.inner < h.cells.length

/-- **C47.** An operation on an object only changes the object itself and the lengths it uses, and objects that use the same lengths: anything
that uses lengths at another address stays as it is. -/
theorem C47_frame {L : PPL} {A : Arith T} {fuel : ℕ} {op : HeapOp T} {h h' : Heap T} (hr : op.exec L A fuel h = .ok h') :
    (∀ a, a < h.cells.length → op.addr h ≠ some a → h'.cells[a]? = h.cells[a]?) ∧
    (∀ (j : ℕ) (E : IET T) (a : ℕ), h.iets[j]? = some (E, a) → op.addr h ≠ some a → h'.iets[j]? = some (E, a)) ∧
    (∀ (j : ℕ) (D : Decomp ℕ T), h.decomps[j]? = some D → op.addr h ≠ some D.lengths.inner → h'.decomps[j]? = some D) := by
  have app : ∀ {α : Type} {l l' : List α} {j : ℕ} {x : α}, l[j]? = some x → (l ++ l')[j]? = some x := by
    intro α l l' j x hx
    rw [List.getElem?_append_left (List.getElem?_eq_some_iff.1 hx).1, hx]
  cases op with
  | lengths l =>
    simp only [HeapOp.exec, bindM_ok] at hr
    obtain ⟨s, _, e⟩ := hr
    cases e
    exact ⟨fun a ha _ => List.getElem?_append_left ha, fun j E a hj _ => hj, fun j D hj _ => hj⟩
  | iet a top bottom =>
    simp only [HeapOp.exec] at hr
    split at hr
    · cases hr
    · simp only [bindM_ok] at hr
      obtain ⟨E, _, e⟩ := hr
      cases e
      exact ⟨fun a ha _ => rfl, fun j E a hj _ => app hj, fun j D hj _ => hj⟩
  | call k op =>
    simp only [HeapOp.exec] at hr
    split at hr
    · cases hr
      exact ⟨fun _ _ _ => rfl, fun _ _ _ hj _ => hj, fun _ _ hj _ => hj⟩
    · rename_i E a hk
      split at hr
      · cases hr
      · simp only [bindM_ok] at hr
        obtain ⟨⟨new, E', s'⟩, _, e⟩ := hr
        cases e
        simp only [HeapOp.addr, hk, Option.map_some]
        refine ⟨fun b hb hne => ?_, fun j F b hj hne => ?_, fun _ _ hj _ => hj⟩
        · exact List.getElem?_set_ne (fun e => hne (by rw [e]))
        · apply app
          rw [List.getElem?_set_ne, hj]
          rintro rfl
          rw [hk] at hj
          cases hj
          exact hne rfl
  | decomposition k =>
    simp only [HeapOp.exec] at hr
    split at hr
    · cases hr
      exact ⟨fun _ _ _ => rfl, fun _ _ _ hj _ => hj, fun _ _ hj _ => hj⟩
    · rename_i E a hk
      split at hr
      · cases hr
      · simp only [bindM_ok] at hr
        obtain ⟨D, _, e⟩ := hr
        cases e
        exact ⟨fun _ _ _ => rfl, fun _ _ _ hj _ => hj, fun j D hj _ => app hj⟩
  | step k i limit =>
    simp only [HeapOp.exec] at hr
    split at hr
    · cases hr
      exact ⟨fun _ _ _ => rfl, fun _ _ _ hj _ => hj, fun _ _ hj _ => hj⟩
    · rename_i D hk
      split at hr
      · cases hr
      · simp only [bindM_ok] at hr
        obtain ⟨⟨st, D'⟩, _, e⟩ := hr
        cases e
        simp only [HeapOp.addr, hk, Option.map_some]
        refine ⟨fun b hb hne => ?_, fun _ _ _ hj _ => hj, fun j D₁ hj hne => ?_⟩
        · exact List.getElem?_set_ne (fun e => hne (by rw [e]))
        · rw [List.getElem?_set_ne, hj]
          rintro rfl
          rw [hk] at hj
          cases hj
          exact hne rfl
  | componentIet k i =>
    simp only [HeapOp.exec] at hr
    split at hr
    · cases hr
      exact ⟨fun _ _ _ => rfl, fun _ _ _ hj _ => hj, fun _ _ hj _ => hj⟩
    · rename_i D hk
      split at hr
      · cases hr
      · simp only [bindM_ok] at hr
        obtain ⟨⟨E, f⟩, _, e⟩ := hr
        cases e
        exact ⟨fun _ ha _ => List.getElem?_append_left ha, fun _ _ _ hj _ => app hj, fun _ _ hj _ => hj⟩

/-- Operations keep the heap closed, and there are never fewer lengths than before. -/
theorem HeapOp.closed {L : PPL} {A : Arith T} {fuel : ℕ} {op : HeapOp T} {h h' : Heap T} (hr : op.exec L A fuel h = .ok h') (hc : h.Closed) :
    h'.Closed ∧ h.cells.length ≤ h'.cells.length := by
  obtain ⟨c1, c2⟩ := hc
  cases op with
  | lengths l =>
    simp only [HeapOp.exec, bindM_ok] at hr
    obtain ⟨s, _, e⟩ := hr
    cases e
    refine ⟨⟨fun e he => ?_, fun D hD => ?_⟩, by simp⟩
    · have := c1 e he; simp; omega
    · have := c2 D hD; simp; omega
  | iet a top bottom =>
    simp only [HeapOp.exec] at hr
    split at hr
    · cases hr
    · rename_i s hs
      simp only [bindM_ok] at hr
      obtain ⟨E, _, e⟩ := hr
      cases e
      refine ⟨⟨fun e he => ?_, c2⟩, le_refl _⟩
      rcases List.mem_append.1 he with he | he
      · exact c1 e he
      · rw [List.mem_singleton.1 he]
        exact (List.getElem?_eq_some_iff.1 hs).1
  | call k op =>
    simp only [HeapOp.exec] at hr
    split at hr
    · cases hr
      exact ⟨⟨c1, c2⟩, le_refl _⟩
    · rename_i E a hk
      split at hr
      · cases hr
      · rename_i s hs
        simp only [bindM_ok] at hr
        obtain ⟨⟨new, E', s'⟩, _, e⟩ := hr
        cases e
        have ha := (List.getElem?_eq_some_iff.1 hs).1
        refine ⟨⟨fun e he => ?_, ?_⟩, by simp⟩
        · simp only [List.length_set]
          rcases List.mem_append.1 he with he | he
          · rcases List.mem_or_eq_of_mem_set he with he | rfl
            · exact c1 e he
            · exact ha
          · obtain ⟨_, _, rfl⟩ := List.mem_map.1 he
            exact ha
        · simpa using c2
  | decomposition k =>
    simp only [HeapOp.exec] at hr
    split at hr
    · cases hr
      exact ⟨⟨c1, c2⟩, le_refl _⟩
    · rename_i E a hk
      split at hr
      · cases hr
      · rename_i s hs
        simp only [bindM_ok] at hr
        obtain ⟨D, _, e⟩ := hr
        cases e
        refine ⟨⟨c1, fun D' hD' => ?_⟩, le_refl _⟩
        rcases List.mem_append.1 hD' with hD' | hD'
        · exact c2 D' hD'
        · rw [List.mem_singleton.1 hD']
          exact (List.getElem?_eq_some_iff.1 hs).1
  | step k i limit =>
    simp only [HeapOp.exec] at hr
    split at hr
    · cases hr
      exact ⟨⟨c1, c2⟩, le_refl _⟩
    · rename_i D hk
      split at hr
      · cases hr
      · rename_i s hs
        simp only [bindM_ok] at hr
        obtain ⟨⟨st, D'⟩, _, e⟩ := hr
        cases e
        refine ⟨⟨by simpa using c1, fun D₁ hD₁ => ?_⟩, by simp⟩
        simp only [List.length_set]
        rcases List.mem_or_eq_of_mem_set hD₁ with he | rfl
        · exact c2 D₁ he
        · exact (List.getElem?_eq_some_iff.1 hs).1
  | componentIet k i =>
    simp only [HeapOp.exec] at hr
    split at hr
    · cases hr
      exact ⟨⟨c1, c2⟩, le_refl _⟩
    · rename_i D hk
      split at hr
      · cases hr
      · simp only [bindM_ok] at hr
        obtain ⟨⟨E, f⟩, _, e⟩ := hr
        cases e
        refine ⟨⟨fun e he => ?_, fun D hD => ?_⟩, by simp⟩
        · simp only [List.length_append, List.length_singleton]
          rcases List.mem_append.1 he with he | he
          · have := c1 e he; omega
          · rw [List.mem_singleton.1 he]; simp
        · have := c2 D hD; simp; omega

theorem HeapRun.frame {L : PPL} {A : Arith T} {a : ℕ} {ops : List (HeapOp T)} {h h' : Heap T}
    (hr : HeapRun L A (fun h op => op.addr h ≠ some a) ops h h') (hc : h.Closed) :
    (a < h.cells.length → h'.cells[a]? = h.cells[a]?) ∧ (∀ (j : ℕ) (E : IET T), h.iets[j]? = some (E, a) → h'.iets[j]? = some (E, a)) ∧
    (∀ (j : ℕ) (D : Decomp ℕ T), h.decomps[j]? = some D → D.lengths.inner = a → h'.decomps[j]? = some D) := by
  induction hr with
  | nil => exact ⟨fun _ => rfl, fun _ _ h => h, fun _ _ h _ => h⟩
  | cons fuel op hok h1 _ ih =>
    obtain ⟨c1, c2⟩ := HeapOp.closed h1 hc
    obtain ⟨f1, f2, f3⟩ := C47_frame h1
    obtain ⟨i1, i2, i3⟩ := ih c1
    refine ⟨fun ha => ?_, fun j E hj => i2 j E (f2 j E a hj hok), fun j D hj hD => i3 j D (f3 j D hj (by rw [hD]; exact hok)) hD⟩
    rw [i1 (by omega), f1 a ha hok]

/-- **C47.** `Component::iet()` is a snapshot that does not depend on the decomposition anymore.  The lengths of the new IET are a new
object which nothing else refers to, top and bottom are those of the component and the lengths are those that the component
has.  Afterwards, no matter what is done to any other objects, the new IET and its lengths do not change. Conversely, what is done to the new IET and to
objects created from it does not change the decomposition. -/
theorem C47_snapshot {L : PPL} {A : Arith T} {fuel k i : ℕ} {h h' : Heap T} (hc : h.Closed) {D : Decomp ℕ T} (hk : h.decomps[k]? = some D)
    (hr : (HeapOp.componentIet k i).exec L A fuel h = .ok h') :
    ∃ x s f, D.comps[i]? = some x ∧ h.cells[D.lengths.inner]? = some s ∧
      h' = ⟨h.cells ++ [f], h.iets ++ [(IET.fresh x.iet.top x.iet.bottom, h.cells.length)], h.decomps⟩ ∧
      f.stack = [] ∧ f.lengths = s.lengths ∧
      (∀ e ∈ h.iets, e.2 ≠ h.cells.length) ∧ (∀ D ∈ h.decomps, D.lengths.inner ≠ h.cells.length) ∧
      (∀ ops h'', HeapRun L A (fun g op => op.addr g ≠ some h.cells.length) ops h' h'' →
        h''.cells[h.cells.length]? = some f ∧ h''.iets[h.iets.length]? = some (IET.fresh x.iet.top x.iet.bottom, h.cells.length)) ∧
      (∀ ops h'', HeapRun L A (fun g op => op.addr g ≠ some D.lengths.inner) ops h' h'' →
        h''.cells[D.lengths.inner]? = some s ∧ h''.decomps[k]? = some D) := by
  have hr' := hr
  simp only [HeapOp.exec, hk] at hr
  split at hr
  · cases hr
  · rename_i s hs
    simp only [bindM_ok] at hr
    obtain ⟨⟨E, f⟩, h1, e⟩ := hr
    have hc' := (HeapOp.closed hr' hc).1
    cases e
    simp only [Decomp.iet, bindM_ok] at h1
    obtain ⟨x, g1, f', g2, E', g3, e⟩ := h1
    cases e
    have hx : D.comps[i]? = some x := by
      simp only [Decomp.comp, Decomp.withInner] at g1
      split at g1
      · cases g1; assumption
      · cases g1
    have hf : f.stack = [] ∧ f.lengths = s.lengths := by
      simp only [SLengths.ops, SLengths.forget, SLengths.make, Decomp.withInner] at g2
      split at g2
      · cases g2
      · cases g2; exact ⟨rfl, rfl⟩
    have hE : E = IET.fresh x.iet.top x.iet.bottom := by
      simp only [IET.mk?, bindM_ok] at g3
      obtain ⟨_, _, _, _, _, _, _, _, _, _, _, _, e⟩ := g3
      cases e
      rfl
    subst hE
    have ha : D.lengths.inner < h.cells.length := (List.getElem?_eq_some_iff.1 hs).1
    refine ⟨x, s, f, hx, hs, rfl, hf.1, hf.2, fun e he => by have := hc.1 e he; omega, fun D hD => by have := hc.2 D hD; omega, ?_, ?_⟩
    · intro ops h'' hrun
      obtain ⟨r1, r2, _⟩ := hrun.frame hc'
      refine ⟨?_, r2 _ _ (by simp)⟩
      rw [r1 (by simp)]
      simp
    · intro ops h'' hrun
      obtain ⟨r1, _, r3⟩ := hrun.frame hc'
      refine ⟨?_, r3 _ _ hk rfl⟩
      rw [r1 (by simp; omega), List.getElem?_append_left ha, hs]

/-- **C47.** `Component::iet()` always returns for a component of a decomposition, and what it returns is equal (`operator==`) to the IET of the
component. -/
theorem C47_equal {σ ε : Type} {O : LengthsOps σ T} {d : ℕ} {c : T →+ (Fin d → ℚ)} (H : LawfulLengths O c ε) {L : PPL} (hL : L.Lawful) {E : IET T} {s : σ}
    (hE : H.Ok E s) {D : Decomp σ T} {steps : List DStep} (h : DReach L O E s D steps) (A : Arith T) {i : ℕ} (hi : i < D.comps.length) :
    ∃ x F f, D.comps[i]? = some x ∧ D.iet O A i = .ok (F, f) ∧ F.beq (SLengths.ops A) (LWC.ops O) f x.iet D.lengths = .ok true ∧
      F.swapped = false := by
  obtain ⟨x, hx⟩ : ∃ x, D.comps[i]? = some x := ⟨_, List.getElem?_eq_getElem hi⟩
  have hc : D.comp i = .ok x := by simp only [Decomp.comp, hx]
  have hok := ((DReach.inv hL H (ι := AddMonoidHom.id T) strictMono_id hE h).good x (List.mem_of_getElem? hx)).ok
  obtain ⟨f, f1, f2, f3, f4⟩ := (LWC.lawful H).forget_spec D.lengths hok.inv hok.nonneg
  have hget : ∀ a ∈ x.iet.top, (SLengths.ops A).get a f = .ok ((LWC.lawful H).len D.lengths a) := by
    intro a ha
    show f.at' a = _
    simp only [SLengths.at', f4 a (hok.dom a ha)]
  have hv := hok.valid
  have hn : x.iet.top.Nodup := hv.nodup
  have hnb : x.iet.bottom.Nodup := hv.perm.nodup_iff.2 hv.nodup
  have hlen : x.iet.top.length = x.iet.bottom.length := hv.perm.length_eq.symm
  have hne : x.iet.top.length ≠ 0 := fun e => hv.ne_nil (List.length_eq_zero_iff.1 e)
  have hmk : IET.mk? (SLengths.ops A) x.iet.top x.iet.bottom f = .ok (IET.fresh x.iet.top x.iet.bottom) := by
    simp only [IET.mk?, bind, Except.bind, pure, Except.pure, assertM, hn.dedup, hnb.dedup]
    rw [if_pos (decide_eq_true hlen)]
    simp only [decide_true, if_true]
    rw [mapM_ok hget]
    simp only []
    rw [if_pos (by
      simp only [List.all_map, List.all_eq_true, Function.comp_apply, decide_eq_true_eq]
      exact fun a ha => ne_of_gt (hv.pos a ha)), if_pos (decide_eq_true hne)]
  refine ⟨x, IET.fresh x.iet.top x.iet.bottom, f, hx, ?_, ?_, rfl⟩
  · simp only [Decomp.iet, hc, bind, Except.bind, pure, Except.pure]
    rw [show O.forget D.lengths.inner = .ok f from f1]
    simp only [hmk]
  · unfold IET.beq
    rw [if_neg (by simp [IET.fresh])]
    rw [allM_ok (g := fun _ => true)]
    · simp
    · intro a ha
      have h2 : (LWC.ops O).get a D.lengths = .ok ((LWC.lawful H).len D.lengths a) := (LWC.lawful H).get_spec D.lengths a hok.inv (hok.dom a ha)
      simp only [hget a ha, h2, bind, Except.bind, pure, Except.pure, decide_true]

/-! ### C46 -/

/-- The calls to create an IET with integer lengths and its decomposition. -/
def sharingOps : List (HeapOp ℤ) := [.lengths [50, 5, 3, 7], .iet 0 [0, 1, 2, 3] [3, 2, 1, 0], .decomposition 0]

/-- **C46 is false for this code.** After creating an IET and its decomposition, a step of the decomposition changes the lengths of the IET that the
decomposition has been created from: it is not equal anymore to what it was before, e.g., the length of the interval 0 is 50 before and 5 after the step. -/
theorem C46_refuted (L : PPL) : ∃ (h h' : Heap ℤ) (s s' : SLengths ℤ), HeapRun L intArith (fun _ _ => True) sharingOps ⟨[], [], []⟩ h ∧
    (HeapOp.step 0 0 (-1)).exec L intArith 20 h = .ok h' ∧
    h.iets = [(Examples.intIET, 0)] ∧ h'.iets = [(Examples.intIET, 0)] ∧ h.cells = [s] ∧ h'.cells = [s'] ∧
    (SLengths.ops intArith).get 0 s = .ok 50 ∧ (SLengths.ops intArith).get 0 s' = .ok 5 ∧
    Examples.intIET.beq (SLengths.ops intArith) (SLengths.ops intArith) s Examples.intIET s' = .ok false :=
  ⟨_, _, _, _, .cons 0 _ trivial rfl (.cons 0 _ trivial rfl (.cons 0 _ trivial rfl .nil)), rfl, rfl, rfl, rfl, rfl, rfl, rfl, rfl⟩

/-- **C46**, as far as it holds: a step of a decomposition does not change any IET that the user has, except for the lengths of the IETs that use the
same lengths as the decomposition.  Missing: that these lengths do not change, see `C46_refuted`. -/
theorem C46_partial {L : PPL} {A : Arith T} {fuel k i : ℕ} {limit : ℤ} {h h' : Heap T} {D : Decomp ℕ T} (hk : h.decomps[k]? = some D)
    (hr : (HeapOp.step k i limit).exec L A fuel h = .ok h') :
    h'.iets = h.iets ∧ (∀ a, a ≠ D.lengths.inner → h'.cells[a]? = h.cells[a]?) ∧ (∀ j, j ≠ k → h'.decomps[j]? = h.decomps[j]?) := by
  simp only [HeapOp.exec, hk] at hr
  split at hr
  · cases hr
  · simp only [bindM_ok] at hr
    obtain ⟨⟨st, D'⟩, _, e⟩ := hr
    cases e
    exact ⟨rfl, fun a ha => List.getElem?_set_ne (Ne.symm ha), fun j hj => List.getElem?_set_ne (Ne.symm hj)⟩

/-- A snapshot that is taken before the step is not affected by it. -/
example (L : PPL) : ∃ (h h' : Heap ℤ) (s : SLengths ℤ),
    HeapRun L intArith (fun _ _ => True) (sharingOps ++ [.componentIet 0 0]) ⟨[], [], []⟩ h ∧ h.Closed ∧
    (HeapOp.step 0 0 (-1)).exec L intArith 20 h = .ok h' ∧ h.iets = [(Examples.intIET, 0), (Examples.intIET, 1)] ∧
    h'.cells = [s, ⟨[], [50, 5, 3, 7]⟩] ∧ s.lengths = [5, 3, 3, 2] := by
  refine ⟨_, _, _, .cons 0 _ trivial rfl (.cons 0 _ trivial rfl (.cons 0 _ trivial rfl (.cons 0 _ trivial rfl .nil))), ?_, rfl, rfl, rfl, rfl⟩
  constructor
  · intro e he
    simp only [List.append_eq, List.nil_append, List.mem_append, List.mem_singleton] at he
    rcases he with rfl | rfl <;> decide
  · intro D hD
    simp only [List.append_eq, List.nil_append, List.mem_singleton] at hD
    rw [hD]
    decide

end Verif
