import Verif.Proofs.PointerDecomp
import Verif.Props.Construction
import Verif.Props.Failures
import Verif.Props.Inject

/-!
# C83: decompositions on the level of list nodes

The IETs of the components of a decomposition are lists of nodes with iterators between them (`Verif.Model.PointerDecomp`).
-/

namespace Verif

set_option linter.unusedSectionVars false

variable {σ T ε : Type} [CommRing T] [LinearOrder T] [IsStrictOrderedRing T] {O : LengthsOps σ T} {d : ℕ} {c : T →+ (Fin d → ℚ)}

/-- Specification: the decomposition `PD` has been created from the IET with the nodes `P` in the memory `m` with the lengths `s`; then `calls` have been
performed, which returned `events`.  All injections satisfy `ok`. -/
inductive PDReach (L : PPL) (O : LengthsOps σ T) (P : PIET T) (m : Mem) (s : σ)
    (ok : Decomp σ T → HalfEdge → List (Label × Label) → List (Label × Label) → Prop) : PDecomp σ T → List DCall → List DEvent → Prop
  | init {PD : PDecomp σ T} : PDecomp.make O P s m = .ok PD → PDReach L O P m s ok PD [] []
  | step {PD PD' : PDecomp σ T} {calls : List DCall} {events : List DEvent} {step : DStep} (fuel : ℕ) (limit : ℤ) (i : ℕ) :
      PDReach L O P m s ok PD calls events → PD.decompositionStep L O fuel limit i = .ok (step, PD') →
      PDReach L O P m s ok PD' (calls ++ [.step fuel limit i]) (events ++ [.step step])
  | inject {PD PD' : PDecomp σ T} {D : Decomp σ T} {calls : List DCall} {events : List DEvent} {l r : List Conn} (h : HalfEdge)
      (left right : List (Label × Label)) :
      PDReach L O P m s ok PD calls events → PD.view = .ok D → ok D h left right → PD.inject h left right = .ok ((l, r), PD') →
      PDReach L O P m s ok PD' (calls ++ [.inject h left right]) (events ++ [.inject l r])

variable {ok : Decomp σ T → HalfEdge → List (Label × Label) → List (Label × Label) → Prop}

theorem PDReach.rep {L : PPL} {P : PIET T} {m : Mem} {s : σ} {E : IET T} (hr : Rep m P E) (hm : m.Ok) {PD : PDecomp σ T} {calls : List DCall}
    {events : List DEvent} (h : PDReach L O P m s ok PD calls events) : ∃ D, RepDecomp m D PD ∧ IReach L O E s ok D calls events := by
  induction h with
  | init h =>
    obtain ⟨D, h1, h2⟩ := (make_sim O hr hm s).symm.ok_left h
    exact ⟨D, h2, .init h1⟩
  | step fuel limit i _ h ih =>
    obtain ⟨D, h1, h2⟩ := ih
    obtain ⟨⟨st, D'⟩, h3, h4, h5⟩ := (step_sim L O fuel limit i h1).symm.ok_left h
    dsimp only at h4 h5
    subst h4
    exact ⟨D', h5, .step fuel limit i h2 h3⟩
  | inject g left right _ hv hok h ih =>
    obtain ⟨D, h1, h2⟩ := ih
    obtain ⟨⟨st, D'⟩, h3, h4, h5⟩ := (inject_sim h1 g left right).symm.ok_left h
    dsimp only at h4 h5
    subst h4
    rw [h1.view] at hv
    cases hv
    exact ⟨D', h5, .inject g left right h2 hok h3⟩

theorem IReach.rep {L : PPL} {P : PIET T} {m : Mem} {s : σ} {E : IET T} (hr : Rep m P E) (hm : m.Ok) {D : Decomp σ T} {calls : List DCall}
    {events : List DEvent} (h : IReach L O E s ok D calls events) : ∃ PD, RepDecomp m D PD ∧ PDReach L O P m s ok PD calls events := by
  induction h with
  | init h =>
    obtain ⟨PD, h1, h2⟩ := (make_sim O hr hm s).ok_left h
    exact ⟨PD, h2, .init h1⟩
  | step fuel limit i _ h ih =>
    obtain ⟨PD, h1, h2⟩ := ih
    obtain ⟨⟨st, PD'⟩, h3, h4, h5⟩ := (step_sim L O fuel limit i h1).ok_left h
    dsimp only at h4 h5
    subst h4
    exact ⟨PD', h5, .step fuel limit i h2 h3⟩
  | inject g left right _ hok h ih =>
    obtain ⟨PD, h1, h2⟩ := ih
    obtain ⟨⟨st, PD'⟩, h3, h4, h5⟩ := (inject_sim h1 g left right).ok_left h
    dsimp only at h4 h5
    subst h4
    exact ⟨PD', h5, .inject g left right h2 h1.view hok h3⟩

theorem PReachable.rep_mem {H : LawfulLengths O c ε} {L : PPL} (hL : L.Lawful) {w : PWorld σ T} (hw : PReachable H L w) {P : PIET T} (hP : P ∈ w.pieces) :
    ∃ E, Rep w.mem P E ∧ H.Ok E w.lengths ∧ w.mem.Ok := by
  obtain ⟨w₀, h1, h2⟩ := hw.rep hL
  obtain ⟨j, hj, rfl⟩ := List.getElem_of_mem hP
  have hj' : j < w₀.pieces.length := h2.reps.length_eq ▸ hj
  refine ⟨_, h2.reps.get hj hj', ?_, h2.ok⟩
  rw [← h2.lengths]
  exact (h1.good _ (List.getElem_mem hj')).ok

/-- **C83.** A decomposition is created from any IET after any calls, and calls on its components and half edges are performed.  On the labels that can be
read from the lists, all these calls do the same as the functions on lists of labels, which are the subject of all other properties. -/
theorem C83_labels (H : LawfulLengths O c ε) {L : PPL} (hL : L.Lawful) {w : PWorld σ T} (hw : PReachable H L w) {P : PIET T} (hP : P ∈ w.pieces)
    {PD : PDecomp σ T} {calls : List DCall} {events : List DEvent} (h : PDReach L O P w.mem w.lengths ok PD calls events) :
    ∃ E D, P.view w.mem = .ok E ∧ H.Ok E w.lengths ∧ PD.view = .ok D ∧ IReach L O E w.lengths ok D calls events := by
  obtain ⟨E, h1, h2, h3⟩ := hw.rep_mem hL hP
  obtain ⟨D, h4, h5⟩ := h.rep h1 h3
  exact ⟨E, D, h1.view, h2, h4.view, h5⟩

/-- **C83.** Conversely, what the functions on lists of labels do, the functions on list nodes do as well. -/
theorem C83_nodes (H : LawfulLengths O c ε) {L : PPL} (hL : L.Lawful) {w : PWorld σ T} (hw : PReachable H L w) {P : PIET T} (hP : P ∈ w.pieces)
    {E : IET T} (hE : P.view w.mem = .ok E) {D : Decomp σ T} {calls : List DCall} {events : List DEvent}
    (h : IReach L O E w.lengths ok D calls events) :
    ∃ PD, PDReach L O P w.mem w.lengths ok PD calls events ∧ PD.view = .ok D := by
  obtain ⟨F, h1, h2, h3⟩ := hw.rep_mem hL hP
  rw [h1.view] at hE
  cases hE
  obtain ⟨PD, h4, h5⟩ := h.rep h1 h3
  exact ⟨PD, h5, h4.view⟩

/-- **C83.** At any time, the intervals of each component are paired, no two components share nodes, and no component has a node in common with an IET that
existed before.  The lists of intervals of those IETs, in particular of the one that has been decomposed, have not changed.  (But the decomposition uses and changes
the lengths of that IET, see C46.) -/
theorem C83_paired (H : LawfulLengths O c ε) {L : PPL} (hL : L.Lawful) {w : PWorld σ T} (hw : PReachable H L w) {P : PIET T} (hP : P ∈ w.pieces)
    {PD : PDecomp σ T} {calls : List DCall} {events : List DEvent} (h : PDReach L O P w.mem w.lengths ok PD calls events) :
    (∀ C ∈ PD.comps, Paired PD.mem C.iet.top C.iet.bottom) ∧
      PD.comps.Pairwise (fun C F => ∀ a, a ∈ C.iet.top ∨ a ∈ C.iet.bottom → a ∉ F.iet.top ∧ a ∉ F.iet.bottom) ∧
      (∀ C ∈ PD.comps, ∀ Q ∈ w.pieces, ∀ a, a ∈ C.iet.top ∨ a ∈ C.iet.bottom → a ∉ Q.top ∧ a ∉ Q.bottom) ∧
      ∀ Q ∈ w.pieces, Paired PD.mem Q.top Q.bottom ∧ Q.view PD.mem = Q.view w.mem := by
  obtain ⟨E, h1, h2, h3⟩ := hw.rep_mem hL hP
  obtain ⟨D, h4, h5⟩ := h.rep h1 h3
  have lt : ∀ Q ∈ w.pieces, ∀ a ∈ Q.top ++ Q.bottom, a < w.mem.next := by
    intro Q hQ a ha
    obtain ⟨F, g1, -, -⟩ := hw.rep_mem hL hQ
    have hlive : w.mem.Live a := by
      rcases List.mem_append.1 ha with h1 | h1
      · exact g1.linked.live h1
      · exact g1.linked.live' h1
    obtain ⟨n, hn⟩ := hlive
    by_contra hc
    rw [h3 a (by omega)] at hn
    exact absurd hn (by simp)
  refine ⟨?_, ?_, ?_, ?_⟩
  · intro C hC
    obtain ⟨j, hj, rfl⟩ := List.getElem_of_mem hC
    exact (h4.reps.get hj (h4.reps.length_eq ▸ hj)).iet.linked.paired
  · refine h4.disj.imp ?_
    intro P Q hPQ a ha
    have := hPQ a (List.mem_append.2 ha)
    exact ⟨fun h => this (List.mem_append_left _ h), fun h => this (List.mem_append_right _ h)⟩
  · intro C hC Q hQ a ha
    have g1 := h4.new C hC a (List.mem_append.2 ha)
    constructor <;> intro g
    · have := lt Q hQ a (List.mem_append_left _ g); omega
    · have := lt Q hQ a (List.mem_append_right _ g); omega
  · intro Q hQ
    obtain ⟨F, g1, -, -⟩ := hw.rep_mem hL hQ
    have g2 := g1.frame (m' := PD.mem) (fun a ha => h4.same a (lt Q hQ a ha))
    exact ⟨g2.linked.paired, g2.view.trans g1.view.symm⟩

private theorem RelM.map_eq {α β γ : Type} {R : α → β → Prop} {x : M α} {y : M β} {f : α → γ} {g : β → γ} (hR : RelM R x y)
    (hfg : ∀ a b, R a b → f a = g b) : x.map f = y.map g := by
  cases x with
  | error e => cases y with
    | error e' => rw [show e = e' from hR]; rfl
    | ok b => exact hR.elim
  | ok a => cases y with
    | error e' => exact hR.elim
    | ok b => exact congrArg Except.ok (hfg a b hR)

/-- **C83.** `decompositionStep`, `decompose`, and `inject` on list nodes return the same as the functions on lists of labels, fail in the same cases and in the
same way, and the labels, flags, lengths, and connections afterwards are the same. -/
theorem C83_same (H : LawfulLengths O c ε) {L : PPL} (hL : L.Lawful) {w : PWorld σ T} (hw : PReachable H L w) {P : PIET T} (hP : P ∈ w.pieces)
    {PD : PDecomp σ T} {calls : List DCall} {events : List DEvent} (h : PDReach L O P w.mem w.lengths ok PD calls events) :
    ∃ D, PD.view = .ok D ∧
      (∀ fuel limit i, (D.decompositionStep L O fuel limit i).map (fun r => (r.1, some r.2)) =
        (PD.decompositionStep L O fuel limit i).map (fun r => (r.1, r.2.view.toOption))) ∧
      (∀ target limit fuel, (D.decompose L O target limit fuel).map (fun r => (r.1, some r.2)) =
        (PD.decompose L O target limit fuel).map (fun r => (r.1, r.2.view.toOption))) ∧
      ∀ g left right, (D.inject g left right).map (fun r => (r.1, some r.2)) =
        (PD.inject g left right).map (fun r => (r.1, r.2.view.toOption)) := by
  obtain ⟨E, h1, h2, h3⟩ := hw.rep_mem hL hP
  obtain ⟨D, h4, h5⟩ := h.rep h1 h3
  have key : ∀ {α : Type} (a : α × Decomp σ T) (b : α × PDecomp σ T), a.1 = b.1 ∧ RepDecomp w.mem a.2 b.2 →
      (a.1, some a.2) = (b.1, b.2.view.toOption) := by
    rintro α a b ⟨g1, g2⟩
    rw [g1, g2.view]; rfl
  exact ⟨D, h4.view, fun fuel limit i => RelM.map_eq (step_sim L O fuel limit i h4) key,
    fun target limit fuel => RelM.map_eq (decompose_sim L O target limit fuel h4) key,
    fun g left right => RelM.map_eq (inject_sim h4 g left right) key⟩

/-- **C83.** No call of `decompositionStep` ever follows an invalid iterator: it returns unless it has no limit.  A call without limit returns, or it does
not end, or the SAF invariant is zero and the limit overflows; and then the function on lists of labels, on which there are no iterators, does the same. -/
theorem C83_step (H : LawfulLengths O c ε) {L : PPL} (hL : L.Lawful) {w : PWorld σ T} (hw : PReachable H L w) {P : PIET T} (hP : P ∈ w.pieces)
    {PD : PDecomp σ T} {calls : List DCall} {events : List DEvent} (h : PDReach L O P w.mem w.lengths Consistent PD calls events) {i : ℕ}
    (hi : i < PD.comps.length) (fuel : ℕ) (limit : ℤ) :
    (∃ step PD', PD.decompositionStep L O fuel limit i = .ok (step, PD')) ∨
    (limit = -1 ∧ PD.decompositionStep L O fuel limit i = .error .fuel) ∨
    (limit = -1 ∧ PD.decompositionStep L O fuel limit i = .error .ub ∧ ∃ D x v E', PD.view = .ok D ∧ D.comps[i]? = some x ∧
      D.decompositionStep L O fuel limit i = .error .ub ∧ x.iet.safInvariant (LWC.ops O) D.lengths = .ok (v, E') ∧ ∀ q ∈ v, q = 0) := by
  obtain ⟨E, h1, h2, h3⟩ := hw.rep_mem hL hP
  obtain ⟨D, h4, h5⟩ := h.rep h1 h3
  have hs := step_sim L O fuel limit i h4
  have herr : ∀ e, D.decompositionStep L O fuel limit i = .error e → PD.decompositionStep L O fuel limit i = .error e := by
    intro e he
    rw [he] at hs
    cases h6 : PD.decompositionStep L O fuel limit i with
    | ok r => rw [h6] at hs; exact hs.elim
    | error e' => rw [h6] at hs; rw [show e = e' from hs]
  rcases C62_step H hL h2 h5 (h4.reps.length_eq ▸ hi) fuel limit with ⟨st, D', g⟩ | ⟨g1, g | ⟨g, x, v, E', g2, g3, g4⟩⟩
  · obtain ⟨⟨st', PD'⟩, g2, -⟩ := hs.ok_left g
    exact .inl ⟨st', PD', g2⟩
  · exact .inr (.inl ⟨g1, herr _ g⟩)
  · exact .inr (.inr ⟨g1, herr _ g, D, x, v, E', h4.view, g2, g, g3, g4⟩)

/-- **C83.** The same for `decompose`. -/
theorem C83_decompose (H : LawfulLengths O c ε) {L : PPL} (hL : L.Lawful) {w : PWorld σ T} (hw : PReachable H L w) {P : PIET T} (hP : P ∈ w.pieces)
    {PD : PDecomp σ T} {calls : List DCall} {events : List DEvent}
    (h : PDReach L O P w.mem w.lengths (fun _ _ _ _ => False) PD calls events) (target : Comp T → Bool) (limit : ℤ) (fuel : ℕ) :
    (∃ b PD', PD.decompose L O target limit fuel = .ok (b, PD')) ∨ PD.decompose L O target limit fuel = .error .fuel ∨
    (limit = -1 ∧ PD.decompose L O target limit fuel = .error .ub ∧ ∃ D, PD.view = .ok D ∧ D.decompose L O target limit fuel = .error .ub) := by
  obtain ⟨E, h1, h2, h3⟩ := hw.rep_mem hL hP
  obtain ⟨D, h4, h5⟩ := h.rep h1 h3
  have hs := decompose_sim L O target limit fuel h4
  have herr : ∀ e, D.decompose L O target limit fuel = .error e → PD.decompose L O target limit fuel = .error e := by
    intro e he
    rw [he] at hs
    cases h6 : PD.decompose L O target limit fuel with
    | ok r => rw [h6] at hs; exact hs.elim
    | error e' => rw [h6] at hs; rw [show e = e' from hs]
  rcases C57_decompose H hL h2 h5.dreach target limit fuel with ⟨b, D', g⟩ | g | ⟨g1, g⟩
  · obtain ⟨⟨b', PD'⟩, g2, -⟩ := hs.ok_left g
    exact .inl ⟨b', PD', g2⟩
  · exact .inr (.inl (herr _ g))
  · exact .inr (.inr ⟨g1, herr _ g, D, h4.view, g⟩)

/-- **C83.** Creating the decomposition returns. -/
theorem C83_make (H : LawfulLengths O c ε) {L : PPL} (hL : L.Lawful) {w : PWorld σ T} (hw : PReachable H L w) {P : PIET T} (hP : P ∈ w.pieces) :
    ∃ PD, PDecomp.make O P w.lengths w.mem = .ok PD := by
  obtain ⟨E, h1, h2, h3⟩ := hw.rep_mem hL hP
  obtain ⟨D, g, -⟩ := C57_make H L h2
  obtain ⟨PD, g2, -⟩ := (make_sim O h1 h3 w.lengths).ok_left g
  exact ⟨PD, g2⟩

/-- The example with lengths 50, 5, 3, 7: the IET is created (nodes 0 to 7), then decomposed (nodes 8 to 15) with three steps; two connections do not separate,
the third does (nodes 16 to 19 are new, others have been erased).  The lists of the IET itself are unchanged. -/
example (L : PPL) : ∃ (w : PWorld (SLengths ℤ) ℤ) (P : PIET ℤ) (PD : PDecomp (SLengths ℤ) ℤ) (events : List DEvent), PReachable Examples.hInt L w ∧
    P ∈ w.pieces ∧ PDReach L (SLengths.ops intArith) P w.mem w.lengths Consistent PD [.step 9 (-1) 0, .step 9 (-1) 0, .step 9 (-1) 0] events ∧
    PD.comps.map (fun C => C.iet.top) = [[10], [18]] ∧ PD.comps.map (fun C => C.iet.bottom) = [[16], [19]] ∧
    PD.mem.node 10 = some ⟨2, some 16⟩ ∧ PD.mem.node 18 = some ⟨3, some 19⟩ ∧ PD.mem.node 8 = none ∧ PD.mem.node 0 = some ⟨0, some 7⟩ :=
  ⟨_, _, _, _, .new .init Examples.int_ok (by simp) rfl, List.mem_singleton_self _, .step 9 (-1) 0 (.step 9 (-1) 0 (.step 9 (-1) 0 (.init rfl) rfl) rfl) rfl,
    rfl, rfl, rfl, rfl, rfl, rfl⟩

end Verif
