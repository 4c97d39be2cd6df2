import Verif.Model.Python
import Verif.Props.Construction
import Verif.Props.Equality
import Verif.Props.Sharing

/-!
# C67: IETs created from Python
-/

namespace Verif

set_option linter.unusedSectionVars false

variable {T : Type} [CommRing T] [LinearOrder T] [IsStrictOrderedRing T] {d : ℕ} {c : T →+ (Fin d → ℚ)}

/-- Specification: the input describes an IET. -/
def PyInput (lengths : List T) (permutation : List ℤ) : Prop :=
  lengths ≠ [] ∧ (∀ x ∈ lengths, 0 < x) ∧ permutation.Perm ((List.range lengths.length).map (fun (i : ℕ) => (i : ℤ)))

/-- The state after creating an IET with these labels on the bottom. -/
def Py.created (y : Py T) (l : List T) (bottom : List Label) : Py T :=
  ⟨{ y.heap with cells := y.heap.cells ++ [⟨[], l⟩, ⟨[], l⟩], iets := y.heap.iets ++ [(IET.fresh (List.range l.length) bottom, y.heap.cells.length + 1)] },
    y.views ++ [y.heap.cells.length]⟩

theorem pickLabels_ok {n : ℕ} : ∀ {p : List ℤ} {b : List Label}, pickLabels (List.range n) p = .ok b ↔
    p = b.map (fun a => ((a : ℕ) : ℤ)) ∧ ∀ a ∈ b, a < n
  | [], b => by
    simp only [pickLabels, List.mapM_nil, pure, Except.pure, Except.ok.injEq]
    constructor
    · rintro rfl; simp
    · rintro ⟨h, -⟩; simpa using h
  | q :: p, b => by
    have ih := fun b => pickLabels_ok (n := n) (p := p) (b := b)
    simp only [pickLabels] at ih
    simp only [pickLabels, List.mapM_cons]
    by_cases hq : q < 0
    · rw [if_pos hq]
      simp only [bind, Except.bind]
      constructor
      · intro h; cases h
      · rintro ⟨h, -⟩
        cases b with
        | nil => simp at h
        | cons a b => simp only [List.map_cons, List.cons.injEq] at h; omega
    · rw [if_neg hq]
      by_cases hn : q.toNat < n
      · simp only [List.getElem?_range hn, bindM_ok, pure, Except.pure]
        constructor
        · rintro ⟨_, e, b', hb, e'⟩
          cases e; cases e'
          obtain ⟨h1, h2⟩ := (ih b').mp hb
          refine ⟨?_, ?_⟩
          · rw [List.map_cons, ← h1]
            congr 1
            omega
          · intro a ha
            rcases List.mem_cons.mp ha with rfl | ha
            · exact hn
            · exact h2 a ha
        · rintro ⟨h1, h2⟩
          cases b with
          | nil => simp at h1
          | cons a b =>
            simp only [List.map_cons, List.cons.injEq] at h1
            refine ⟨q.toNat, rfl, b, (ih b).mpr ⟨h1.2, fun x hx => h2 x (List.mem_cons_of_mem _ hx)⟩, ?_⟩
            have : q.toNat = a := by omega
            rw [this]
      · have : (List.range n)[q.toNat]? = none := by simpa using not_lt.mp hn
        rw [this]
        simp only [bind, Except.bind]
        constructor
        · intro h; cases h
        · rintro ⟨h, h2⟩
          cases b with
          | nil => simp at h
          | cons a b =>
            simp only [List.map_cons, List.cons.injEq] at h
            have h3 : (a : ℕ) < n := h2 a (by simp)
            have h4 : q.toNat = a := by rw [h.1]; exact Int.toNat_natCast a
            exact absurd (h4 ▸ h3) hn

theorem range_perm {n : ℕ} {b : List ℕ} (hn : b.Nodup) (hl : b.length = n) (h : ∀ a ∈ b, a < n) : b.Perm (List.range n) :=
  (List.subperm_of_subset hn (fun a ha => List.mem_range.mpr (h a ha))).perm_of_length_le (by simp [hl])

theorem create_ok {L : PPL} {A : Arith T} {fuel : ℕ} {l : List T} {p : List ℤ} {y y' : Py T} :
    (PyOp.create l p).exec L A fuel y = .ok y' ↔
      PyInput l p ∧ ∃ b : List Label, p = b.map (fun a => ((a : ℕ) : ℤ)) ∧ y' = y.created l b := by
  have hget : ∀ a ∈ List.range l.length, ∃ x, (SLengths.ops A).get a (⟨[], l⟩ : SLengths T) = .ok x ∧ l[a]? = some x := by
    intro a ha
    have ha := List.mem_range.mp ha
    exact ⟨l[a], by simp [SLengths.ops, SLengths.at', ha], by simp [ha]⟩
  have hpos : (∀ x ∈ l, ¬ x < 0) → ((∀ a ∈ List.range l.length, (SLengths.ops A).get a (⟨[], l⟩ : SLengths T) ≠ .ok 0) ↔ ∀ x ∈ l, 0 < x) := by
    intro h0
    constructor
    · intro h x hx
      obtain ⟨i, hi, rfl⟩ := List.getElem_of_mem hx
      obtain ⟨x, h1, h2⟩ := hget i (List.mem_range.mpr hi)
      have := h i (List.mem_range.mpr hi)
      rw [h1] at this
      rw [List.getElem?_eq_getElem hi, Option.some.injEq] at h2
      rw [h2]
      exact lt_of_le_of_ne (not_lt.mp (h2 ▸ h0 _ hx)) (fun e => this (by rw [← e]))
    · intro h a ha e
      obtain ⟨x, h1, h2⟩ := hget a ha
      rw [h1] at e
      injection e with e
      have := h x (List.mem_of_getElem? h2)
      rw [e] at this
      exact lt_irrefl _ this
  have hmk := fun b => mk?_outcome (O := SLengths.ops A) (List.range l.length) b ⟨[], l⟩ (fun a ha => (hget a ha).imp fun _ h => h.1)
  constructor
  · intro h
    simp only [PyOp.exec] at h
    by_cases hl : l = []
    · rw [if_pos hl] at h; simp [throw, throwThe, MonadExceptOf.throw, bind, Except.bind] at h
    rw [if_neg hl] at h
    simp only [bindM_ok, pure, Except.pure] at h
    obtain ⟨s, hs, b, hb, E, hE, e⟩ := h
    unfold SLengths.make at hs
    split at hs
    · cases hs
    rename_i h0
    cases hs
    simp only [List.any_eq_true, decide_eq_true_eq, not_exists, not_and] at h0
    simp only [SLengths.labels] at hb hE
    obtain ⟨h1, h2⟩ := pickLabels_ok.mp hb
    rw [hmk] at hE
    split at hE
    · rename_i hc
      cases hE
      cases e
      refine ⟨⟨hl, (hpos h0).mp hc.2.2.2.1, ?_⟩, b, h1, rfl⟩
      rw [h1]
      exact (range_perm hc.2.2.1 (by simpa using hc.1.symm) h2).map _
    · cases hE
  · rintro ⟨⟨hl, h0, hp⟩, b, rfl, rfl⟩
    have hb : b.Perm (List.range l.length) := by
      have := hp.map Int.toNat
      simpa [List.map_map, Function.comp_def] using this
    have hlt : ∀ a ∈ b, a < l.length := fun a ha => List.mem_range.mp (hb.mem_iff.mp ha)
    have hmake : SLengths.make l = .ok ⟨[], l⟩ := by
      unfold SLengths.make
      rw [if_neg]
      simp only [List.any_eq_true, decide_eq_true_eq, not_exists, not_and]
      exact fun x hx => (h0 x hx).le.not_gt
    have hmk' := hmk b
    rw [if_pos ⟨hb.length_eq.symm, List.nodup_range, hb.nodup_iff.mpr List.nodup_range, (hpos (fun x hx => (h0 x hx).le.not_gt)).mpr h0,
      by simpa using hl⟩] at hmk'
    simp only [PyOp.exec, if_neg hl, hmake, SLengths.labels, pickLabels_ok.mpr ⟨rfl, hlt⟩, hmk', bind, Except.bind, pure, Except.pure, Py.created]

/-- **C67** `IntervalExchangeTransformation(lengths, permutation)` returns exactly if the lengths are positive, there is at least one, and
`permutation` contains each of `0, …, n - 1` once.  Otherwise there is an error (or the behaviour is undefined). -/
theorem C67_accepts {L : PPL} {A : Arith T} {fuel : ℕ} {l : List T} {p : List ℤ} {y : Py T} :
    (∃ y', (PyOp.create l p).exec L A fuel y = .ok y') ↔ PyInput l p := by
  constructor
  · rintro ⟨y', h⟩
    exact (create_ok.mp h).1
  · intro h
    refine ⟨_, create_ok.mpr ⟨h, p.map Int.toNat, ?_, rfl⟩⟩
    have h0 : ∀ q ∈ p, 0 ≤ q := by
      intro q hq
      obtain ⟨i, -, rfl⟩ := List.mem_map.mp (h.2.2.mem_iff.mp hq)
      positivity
    rw [List.map_map]
    conv_lhs => rw [← List.map_id p]
    exact List.map_congr_left (fun q hq => by simp [h0 q hq])

/-- **C67** The new IET has the labels `0, …, n - 1` on the top and the ones given by the permutation on the bottom, with the given lengths;
it meets the hypotheses of all other theorems. -/
theorem C67_created {A : Arith T} (hA : A.Lawful c) {L : PPL} {fuel : ℕ} {l : List T} {p : List ℤ} {y y' : Py T}
    (h : (PyOp.create l p).exec L A fuel y = .ok y') :
    ∃ (E : IET T) (a : ℕ) (s : SLengths T), y'.heap.iets = y.heap.iets ++ [(E, a)] ∧ y'.heap.cells[a]? = some s ∧
      E.top = List.range l.length ∧ E.bottom.map (fun b => ((b : ℕ) : ℤ)) = p ∧ (∀ b < l.length, ∃ x, l[b]? = some x ∧ (SLengths.ops A).get b s = .ok x) ∧
      (SLengths.lawful hA).Ok E s ∧ E.swapped = false ∧ E.tracker = Tracker.init := by
  obtain ⟨⟨h1, h2, h3⟩, b, rfl, rfl⟩ := create_ok.mp h
  have hb : b.Perm (List.range l.length) := by
    have := h3.map Int.toNat
    simpa [List.map_map, Function.comp_def] using this
  refine ⟨IET.fresh (List.range l.length) b, _, ⟨[], l⟩, rfl, ?_, rfl, rfl, ?_, ?_, rfl, rfl⟩
  · simp only [Py.created]
    rw [List.getElem?_append_right (by omega)]
    simp
  · intro a ha
    exact ⟨l[a], by simp [ha], by simp [SLengths.ops, SLengths.at', ha]⟩
  · refine Examples.sample_ok _ _ _ _ ⟨by simpa using h1, List.nodup_range, hb, ?_, fun x hx => (h2 x hx).le⟩
    intro a ha
    have ha := List.mem_range.mp ha
    refine ⟨ha, ?_⟩
    rw [List.getD_eq_getElem _ _ ha]
    exact h2 _ (List.getElem_mem ha)

/-- **C67** Two IETs that have just been created are equal, exactly if they have been created from the same lengths and the same
permutation. -/
theorem C67_equal {A : Arith T} (hA : A.Lawful c) {L : PPL} {fuel : ℕ} {l l' : List T} {p p' : List ℤ} {y y₁ y₂ : Py T}
    (h : (PyOp.create l p).exec L A fuel y = .ok y₁) (h' : (PyOp.create l' p').exec L A fuel y₁ = .ok y₂) :
    ∃ (E E' : IET T) (a a' : ℕ) (s s' : SLengths T) (r : Bool), y₂.heap.iets = y.heap.iets ++ [(E, a), (E', a')] ∧
      y₂.heap.cells[a]? = some s ∧ y₂.heap.cells[a']? = some s' ∧ E.beq (SLengths.ops A) (SLengths.ops A) s E' s' = .ok r ∧ (r = true ↔ l = l' ∧ p = p') := by
  have keep : ∀ {a : ℕ} {s : SLengths T}, y₁.heap.cells[a]? = some s → y₂.heap.cells[a]? = some s := by
    intro a s hs
    obtain ⟨-, b, -, rfl⟩ := create_ok.mp h'
    simp only [Py.created]
    rw [List.getElem?_append_left (List.getElem?_eq_some_iff.1 hs).1, hs]
  obtain ⟨E, a, s, h1, h2, h3, h4, h5, h6, -⟩ := C67_created hA h
  obtain ⟨E', a', s', h1', h2', h3', h4', h5', h6', -⟩ := C67_created hA h'
  obtain ⟨r, hr, hr'⟩ := C24_eq (SLengths.lawful hA) (SLengths.lawful hA) h6 h6'
  refine ⟨E, E', a, a', s, s', r, by rw [h1', h1]; simp, keep h2, h2', hr, hr'.trans ?_⟩
  constructor
  · rintro ⟨e1, e2, e3⟩
    have hlen : l.length = l'.length := by
      rw [h3, h3'] at e1
      simpa using congrArg List.length e1
    refine ⟨?_, by rw [← h4, ← h4', e2]⟩
    apply List.ext_getElem?
    intro i
    by_cases hi : i < l.length
    · obtain ⟨x, a1, a2⟩ := h5 i hi
      obtain ⟨x', b1, b2⟩ := h5' i (hlen ▸ hi)
      have := e3 i (h3 ▸ List.mem_range.mpr hi)
      rw [a2, b2] at this
      injection this with this
      rw [a1, b1, this]
    · rw [List.getElem?_eq_none (not_lt.mp hi), List.getElem?_eq_none (hlen ▸ not_lt.mp hi)]
  · rintro ⟨rfl, rfl⟩
    refine ⟨by rw [h3, h3'], ?_, ?_⟩
    · have hinj : Function.Injective (fun b : ℕ => (b : ℤ)) := fun x y e => by simpa using e
      exact hinj.list_map (h4.trans h4'.symm)
    · intro b hb
      rw [h3] at hb
      obtain ⟨x, a1, a2⟩ := h5 b (List.mem_range.mp hb)
      obtain ⟨x', b1, b2⟩ := h5' b (List.mem_range.mp hb)
      rw [a1] at b1
      cases b1
      rw [a2, b2]

/-! ### `iet.lengths()` -/

/-- Calls in Python, one after the other, all of them return. -/
inductive PyRun (L : PPL) (A : Arith T) : List (PyOp T) → Py T → Prop
  | nil : PyRun L A [] ⟨⟨[], [], []⟩, []⟩
  | snoc {ops : List (PyOp T)} {y y' : Py T} (fuel : ℕ) (op : PyOp T) : PyRun L A ops y → op.exec L A fuel y = .ok y' → PyRun L A (ops ++ [op]) y'

/-- The lengths that IETs have been created with. -/
def PyOp.given : PyOp T → Option (List T)
  | create l _ => some l
  | _ => none

/-- No object refers to the lengths that are returned by `iet.lengths()`. -/
structure Py.Separate (y : Py T) : Prop where
  closed : y.heap.Closed
  views : ∀ v ∈ y.views, v < y.heap.cells.length
  iets : ∀ e ∈ y.heap.iets, e.2 ∉ y.views
  decomps : ∀ D ∈ y.heap.decomps, D.lengths.inner ∉ y.views

/-- Calls on existing objects only create objects that refer to lengths of existing objects or to new lengths. -/
theorem HeapOp.refers {L : PPL} {A : Arith T} {fuel : ℕ} {op : HeapOp T} {h h' : Heap T} (hr : op.exec L A fuel h = .ok h')
    (hop : ∀ a top bottom, op ≠ .iet a top bottom) {V : List ℕ} (hV : ∀ v ∈ V, v < h.cells.length) (h1 : ∀ e ∈ h.iets, e.2 ∉ V)
    (h2 : ∀ D ∈ h.decomps, D.lengths.inner ∉ V) :
    (∀ e ∈ h'.iets, e.2 ∉ V) ∧ (∀ D ∈ h'.decomps, D.lengths.inner ∉ V) ∧ ∀ v ∈ V, op.addr h ≠ some v := by
  have hset : ∀ {α : Type} {l : List α} {i : ℕ} {x y : α}, y ∈ l.set i x → y = x ∨ y ∈ l := fun h => (List.mem_or_eq_of_mem_set h).symm
  cases op with
  | iet a top bottom => exact absurd rfl (hop a top bottom)
  | lengths l =>
    simp only [HeapOp.exec, bindM_ok] at hr
    obtain ⟨s, _, e⟩ := hr
    cases e
    exact ⟨h1, h2, fun v _ => by simp [HeapOp.addr]⟩
  | call k op =>
    simp only [HeapOp.exec] at hr
    cases hk : h.iets[k]? with
    | none =>
      rw [hk] at hr
      cases hr
      exact ⟨h1, h2, fun v _ => by simp [HeapOp.addr, hk]⟩
    | some q =>
      obtain ⟨E, a⟩ := q
      have ha := h1 _ (List.mem_of_getElem? hk)
      rw [hk] at hr
      dsimp only at hr
      split at hr
      · cases hr
      · simp only [bindM_ok] at hr
        obtain ⟨⟨new, E', s'⟩, _, e⟩ := hr
        cases e
        refine ⟨fun e he => ?_, h2, fun v hv => ?_⟩
        · rcases List.mem_append.mp he with he | he
          · rcases hset he with rfl | he
            · exact ha
            · exact h1 e he
          · obtain ⟨F, -, rfl⟩ := List.mem_map.mp he
            exact ha
        · simp only [HeapOp.addr, hk, Option.map_some, ne_eq, Option.some.injEq]
          rintro rfl
          exact ha hv
  | decomposition k =>
    simp only [HeapOp.exec] at hr
    cases hk : h.iets[k]? with
    | none =>
      rw [hk] at hr
      cases hr
      exact ⟨h1, h2, fun v _ => by simp [HeapOp.addr, hk]⟩
    | some q =>
      obtain ⟨E, a⟩ := q
      have ha := h1 _ (List.mem_of_getElem? hk)
      rw [hk] at hr
      dsimp only at hr
      split at hr
      · cases hr
      · simp only [bindM_ok] at hr
        obtain ⟨D, _, e⟩ := hr
        cases e
        refine ⟨h1, fun D' hD' => ?_, fun v hv => ?_⟩
        · rcases List.mem_append.mp hD' with hD' | hD'
          · exact h2 _ hD'
          · obtain rfl := List.mem_singleton.mp hD'
            exact ha
        · simp only [HeapOp.addr, hk, Option.map_some, ne_eq, Option.some.injEq]
          rintro rfl
          exact ha hv
  | step k i limit =>
    simp only [HeapOp.exec] at hr
    cases hk : h.decomps[k]? with
    | none =>
      rw [hk] at hr
      cases hr
      exact ⟨h1, h2, fun v _ => by simp [HeapOp.addr, hk]⟩
    | some D =>
      have ha := h2 _ (List.mem_of_getElem? hk)
      rw [hk] at hr
      dsimp only at hr
      split at hr
      · cases hr
      · simp only [bindM_ok] at hr
        obtain ⟨⟨st, D'⟩, _, e⟩ := hr
        cases e
        refine ⟨h1, fun D'' hD' => ?_, fun v hv => ?_⟩
        · rcases hset hD' with rfl | hD'
          · exact ha
          · exact h2 _ hD'
        · simp only [HeapOp.addr, hk, Option.map_some, ne_eq, Option.some.injEq]
          rintro rfl
          exact ha hv
  | componentIet k i =>
    simp only [HeapOp.exec] at hr
    cases hk : h.decomps[k]? with
    | none =>
      rw [hk] at hr
      cases hr
      exact ⟨h1, h2, fun v _ => by simp [HeapOp.addr, hk]⟩
    | some D =>
      have ha := h2 _ (List.mem_of_getElem? hk)
      rw [hk] at hr
      dsimp only at hr
      split at hr
      · cases hr
      · simp only [bindM_ok] at hr
        obtain ⟨⟨E, f⟩, _, e⟩ := hr
        cases e
        refine ⟨fun e he => ?_, h2, fun v hv => ?_⟩
        · rcases List.mem_append.mp he with he | he
          · exact h1 _ he
          · obtain rfl := List.mem_singleton.mp he
            intro hv
            exact lt_irrefl _ (hV _ hv)
        · simp only [HeapOp.addr, hk, Option.map_some, ne_eq, Option.some.injEq]
          rintro rfl
          exact ha hv

theorem PyRun.separate {L : PPL} {A : Arith T} {ops : List (PyOp T)} {y : Py T} (h : PyRun L A ops y) :
    y.Separate ∧ List.Forall₂ (fun v l => y.heap.cells[v]? = some ⟨[], l⟩) y.views (ops.filterMap PyOp.given) := by
  induction h with
  | nil => exact ⟨⟨⟨by simp, by simp⟩, by simp, by simp, by simp⟩, .nil⟩
  | @snoc ops y y' fuel op _ hr ih =>
    obtain ⟨⟨s1, s2, s3, s4⟩, ih⟩ := ih
    have old : ∀ (hop : HeapOp T) (h' : Heap T), (∀ a top bottom, hop ≠ .iet a top bottom) → hop.exec L A fuel y.heap = .ok h' → y' = ⟨h', y.views⟩ →
        op.given = none → y'.Separate ∧ List.Forall₂ (fun v l => y'.heap.cells[v]? = some ⟨[], l⟩) y'.views ((ops ++ [op]).filterMap PyOp.given) := by
      rintro hop h' hne hx rfl hg
      obtain ⟨r1, r2, r3⟩ := HeapOp.refers hx hne s2 s3 s4
      obtain ⟨c1, c2⟩ := HeapOp.closed hx s1
      refine ⟨⟨c1, fun v hv => lt_of_lt_of_le (s2 v hv) c2, r1, r2⟩, ?_⟩
      simp only [List.filterMap_append, List.filterMap_cons, List.filterMap_nil, hg, List.append_nil]
      have hfr := (C47_frame hx).1
      have key : ∀ {vs : List ℕ} {ls : List (List T)}, (∀ v ∈ vs, v ∈ y.views) → List.Forall₂ (fun v l => y.heap.cells[v]? = some ⟨[], l⟩) vs ls →
          List.Forall₂ (fun v l => h'.cells[v]? = some ⟨[], l⟩) vs ls := by
        intro vs ls hvs hf
        induction hf with
        | nil => exact .nil
        | @cons v l vs ls a _ ih' =>
          refine .cons ?_ (ih' (fun v hv => hvs v (List.mem_cons_of_mem _ hv)))
          rw [hfr v (s2 v (hvs v (by simp))) (r3 v (hvs v (by simp)))]
          exact a
      exact key (fun v hv => hv) ih
    cases op with
    | create l p =>
      obtain ⟨-, b, -, rfl⟩ := create_ok.mp hr
      refine ⟨⟨⟨fun e he => ?_, fun D hD => ?_⟩, fun v hv => ?_, fun e he hv => ?_, fun D hD hv => ?_⟩, ?_⟩
      · simp only [Py.created, List.mem_append, List.mem_singleton] at he
        simp only [Py.created, List.length_append, List.length_cons, List.length_nil]
        rcases he with he | rfl
        · have := s1.1 e he; omega
        · simp
      · have := s1.2 D hD
        simp only [Py.created, List.length_append, List.length_cons, List.length_nil]; omega
      · simp only [Py.created, List.mem_append, List.mem_singleton] at hv
        simp only [Py.created, List.length_append, List.length_cons, List.length_nil]
        rcases hv with hv | rfl
        · have := s2 v hv; omega
        · omega
      · simp only [Py.created, List.mem_append, List.mem_singleton] at he hv
        rcases he with he | rfl
        · rcases hv with hv | hv
          · exact s3 e he hv
          · have := s1.1 e he; omega
        · rcases hv with hv | hv
          · have := s2 _ hv; dsimp only at this; omega
          · dsimp only at hv; omega
      · simp only [Py.created, List.mem_append, List.mem_singleton] at hv
        rcases hv with hv | hv
        · exact s4 D hD hv
        · have := s1.2 D hD; omega
      · simp only [List.filterMap_append, List.filterMap_cons, List.filterMap_nil, PyOp.given, Py.created]
        refine List.rel_append ?_ (.cons ?_ .nil)
        · refine ih.imp ?_
          intro v l hv
          rw [List.getElem?_append_left (List.getElem?_eq_some_iff.1 hv).1, hv]
        · rw [List.getElem?_append_right (le_refl _)]
          simp
    | call k op =>
      simp only [PyOp.exec, bindM_ok, pure, Except.pure] at hr
      obtain ⟨h', hx, e⟩ := hr
      exact old _ h' (by simp) hx (by cases e; rfl) rfl
    | decomposition k =>
      simp only [PyOp.exec, bindM_ok, pure, Except.pure] at hr
      obtain ⟨h', hx, e⟩ := hr
      exact old _ h' (by simp) hx (by cases e; rfl) rfl
    | step k i limit =>
      simp only [PyOp.exec, bindM_ok, pure, Except.pure] at hr
      obtain ⟨h', hx, e⟩ := hr
      exact old _ h' (by simp) hx (by cases e; rfl) rfl
    | componentIet k i =>
      simp only [PyOp.exec, bindM_ok, pure, Except.pure] at hr
      obtain ⟨h', hx, e⟩ := hr
      exact old _ h' (by simp) hx (by cases e; rfl) rfl

/-- **C67** Whatever is called, `iet.lengths()` in Python has the lengths that the IET has been created with, not the current ones. -/
theorem C67_lengths {L : PPL} {A : Arith T} {ops : List (PyOp T)} {y : Py T} (h : PyRun L A ops y) {n : ℕ} {l : List T}
    (hl : (ops.filterMap PyOp.given)[n]? = some l) : ∃ v s, y.views[n]? = some v ∧ y.heap.cells[v]? = some s ∧ s.lengths = l := by
  obtain ⟨-, h2⟩ := h.separate
  have : ∀ {vs : List ℕ} {ls : List (List T)} {n : ℕ}, List.Forall₂ (fun v l => y.heap.cells[v]? = some (⟨[], l⟩ : SLengths T)) vs ls → ls[n]? = some l →
      ∃ v s, vs[n]? = some v ∧ y.heap.cells[v]? = some s ∧ s.lengths = l := by
    intro vs ls n hf
    induction hf generalizing n with
    | nil => intro h; simp at h
    | @cons v l' vs ls a _ ih =>
      intro h
      cases n with
      | zero =>
        simp only [List.getElem?_cons_zero, Option.some.injEq] at h
        subst h
        exact ⟨v, _, rfl, a, rfl⟩
      | succ n => simpa using ih (by simpa using h)
  exact this h2 hl

/-- The case from the documentation of pyintervalxt: after a step of the induction, the lengths of the IET are not what `iet.lengths()` says. -/
theorem C67_stale (L : PPL) : ∃ (y : Py ℤ) (E : IET ℤ) (s v : SLengths ℤ),
    PyRun L intArith [.create [18, 3] [1, 0], .call 0 (.zorichInduction 0)] y ∧ y.heap.iets = [(E, 1)] ∧ y.heap.cells = [v, s] ∧ y.views = [0] ∧
    (SLengths.ops intArith).get 0 s = .ok 3 ∧ (SLengths.ops intArith).get 0 v = .ok 18 :=
  ⟨_, _, _, _, .snoc 0 _ (.snoc 0 _ .nil rfl) rfl, rfl, rfl, rfl, rfl, rfl⟩

/-- The examples for `==` in the documentation of pyintervalxt meet the hypotheses of C67_equal. -/
example : PyInput [(1 : ℤ), 1, 1] [1, 0, 2] ∧ PyInput [(1 : ℤ), 1, 1] [2, 1, 0] ∧ PyInput [(3 : ℤ), 2, 1] [1, 2, 0] ∧ ¬ PyInput [(3 : ℤ), 2, 1] [1, 2, 3] ∧
    ¬ PyInput [(3 : ℤ), 2, 1] [1, 2, -1] := by
  simp only [PyInput]
  decide

end Verif
