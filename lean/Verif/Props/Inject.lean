import Verif.ExamplesDecomp
import Verif.Proofs.Boundary
import Verif.Proofs.Stored
import Verif.Props.Decomposition

/-!
# C62: decompositions with injected connections
-/

namespace Verif

set_option linter.unusedSectionVars false

variable {σ T ε : Type} [CommRing T] [LinearOrder T] [IsStrictOrderedRing T] {O : LengthsOps σ T} {d : ℕ} {c : T →+ (Fin d → ℚ)}
  {ok : Decomp σ T → HalfEdge → List (Label × Label) → List (Label × Label) → Prop}

/-- Without injections. -/
theorem IReach.dreach {L : PPL} {E : IET T} {s : σ} {D : Decomp σ T} {calls : List DCall} {events : List DEvent}
    (h : IReach L O E s (fun _ _ _ _ => False) D calls events) : DReach L O E s D (events.filterMap DEvent.step?) := by
  induction h with
  | init h => exact .init h
  | step fuel limit i _ h ih =>
    rw [List.filterMap_append]
    exact .step fuel limit i ih h
  | inject _ _ _ _ h => exact h.elim

/-- What can be seen of a step, except for the connections. -/
def DStep.seen (st : DStep) : DResult × Option ℕ × Bool := (st.result, st.additional, st.connection.isSome)

theorem IReach.alike (H : LawfulLengths O c ε) {L : PPL} (hL : L.Lawful) {E : IET T} {s : σ} (hE : H.Ok E s)
    {D : Decomp σ T} {calls : List DCall} {events : List DEvent} (h : IReach L O E s ok D calls events) :
    ∃ D₀ events₀, IReach L O E s (fun _ _ _ _ => False) D₀ (calls.filter DCall.isStep) events₀ ∧ D.Alike D₀ ∧
      (events.filterMap DEvent.step?).map DStep.seen = (events₀.filterMap DEvent.step?).map DStep.seen := by
  induction h with
  | @init D h => exact ⟨D, [], .init h, .refl D, rfl⟩
  | @step D D' calls events st fuel limit i _ h ih =>
    obtain ⟨D₀, events₀, h1, h2, h3⟩ := ih
    obtain ⟨st₀, D₀', g1, g2, g3⟩ := h2.step (fun _ _ h => h) hL (h1.dreach.inv hL H (ι := AddMonoidHom.id T) (fun _ _ h => h) hE) h
    refine ⟨D₀', events₀ ++ [.step st₀], ?_, g2, ?_⟩
    · rw [List.filter_append]
      exact .step fuel limit i h1 g1
    · simp only [List.filterMap_append, List.map_append, h3]
      simp [DEvent.step?, DStep.seen, g3.result, g3.additional, g3.connection]
  | @inject D D' calls events l r g left right _ _ h ih =>
    obtain ⟨D₀, events₀, h1, h2, h3⟩ := ih
    refine ⟨D₀, events₀, ?_, (Decomp.inject_alike h).trans h2, ?_⟩
    · rw [List.filter_append]
      simpa [DCall.isStep] using h1
    · rw [List.filterMap_append, show List.filterMap DEvent.step? [DEvent.inject l r] = [] from rfl, List.append_nil]
      exact h3

/-- **C62.** Injecting connections does not influence what is computed: when all calls of `inject()` are left out, the calls of `decompositionStep()` return as
well, with the same results and additional components, they report a connection exactly if they reported one before, and in the end
there are the same components (same contours, same flags) and lengths.  And that is a decomposition without injections as in all other properties. -/
theorem C62_dynamics (H : LawfulLengths O c ε) {L : PPL} (hL : L.Lawful) {E : IET T} {s : σ} (hE : H.Ok E s)
    {D : Decomp σ T} {calls : List DCall} {events : List DEvent} (h : IReach L O E s ok D calls events) :
    ∃ D₀ events₀, IReach L O E s (fun _ _ _ _ => False) D₀ (calls.filter DCall.isStep) events₀ ∧ DReach L O E s D₀ (events₀.filterMap DEvent.step?) ∧
      (events.filterMap DEvent.step?).map (fun st => (st.result, st.additional, st.connection.isSome)) =
        (events₀.filterMap DEvent.step?).map (fun st => (st.result, st.additional, st.connection.isSome)) ∧
      D.comps = D₀.comps ∧ D.lengths.inner = D₀.lengths.inner := by
  obtain ⟨D₀, events₀, h1, h2, h3⟩ := h.alike H hL hE
  exact ⟨D₀, events₀, h1, h1.dreach, h3, h2.comps, h2.lengths.inner⟩

theorem mem_halfEdges {D : Decomp σ T} (hs : ∀ x ∈ D.comps, x.iet.swapped = false ∧ x.iet.bottom.Perm x.iet.top) {h : HalfEdge} (hh : h ∈ D.halfEdges) :
    ∃ x ∈ D.comps, h.label ∈ x.iet.top := by
  obtain ⟨⟨x, i⟩, hx, hg⟩ := List.mem_flatMap.mp hh
  have hx := List.fst_mem_of_mem_zipIdx hx
  obtain ⟨g1, g2⟩ := hs x hx
  simp only [Comp.topContour, Comp.bottomContour, g1, Bool.false_eq_true, if_false, List.mem_append, List.mem_map] at hg
  rcases hg with ⟨a, ha, rfl⟩ | ⟨a, ha, rfl⟩
  · exact ⟨x, hx, ha⟩
  · exact ⟨x, hx, g2.mem_iff.mp ha⟩

/-- The invariants of decompositions with injections. -/
theorem IReach.stored (H : LawfulLengths O c ε) {L : PPL} (hL : L.Lawful) {E : IET T} {s : σ} (hE : H.Ok E s)
    (hok : ∀ D h left right, ok D h left right → h ∈ D.halfEdges)
    {D : Decomp σ T} {calls : List DCall} {events : List DEvent} (h : IReach L O E s ok D calls events) :
    D.Stored (reported (events.filterMap DEvent.step?) ++ events.flatMap DEvent.injectedRight)
      ((reported (events.filterMap DEvent.step?)).map Conn.neg ++ events.flatMap DEvent.injectedLeft) ∧
    ((∀ D h left right, ok D h left right → Consistent D h left right) → D.Chained) := by
  induction h with
  | @init D h =>
    obtain ⟨D', h1, h2, h3, -⟩ := Decomp.make_spec H (ι := AddMonoidHom.id T) (fun _ _ h => h) hE
    rw [h] at h1
    cases h1
    have hinv := (DReach.init (L := L) h).inv hL H (ι := AddMonoidHom.id T) (fun _ _ h => h) hE
    obtain ⟨oc, -, ht⟩ := hinv.track
    have hkeys : D.lengths.conns.keys = E.top := ht.keys
    have hval : ∀ l, D.lengths.conns.val l = {} := by
      have h1 : IET.mk? (LWC.ops O) E.top E.bottom ⟨s, [], ⟨[], fun _ => {}⟩, []⟩ = .ok (IET.fresh E.top E.bottom : IET T) :=
        mk?_spec H hE.inv hE.valid hE.dom
      simp only [Decomp.make, h1, bind, Except.bind, pure, Except.pure] at h
      cases h
      exact fun _ => rfl
    refine ⟨⟨by rw [hkeys]; exact hE.valid.nodup, fun l _ => hval l, ?_, ?_, ?_⟩, fun _ => ⟨?_, ?_⟩⟩
    · simp [hval, rightOf, reported]
    · simp [hval, leftOf, reported]
    · intro l x hx
      simp [hval, rightOf] at hx
    · intro x _ l _
      rw [hval]
      trivial
    · intro x _ l _
      rw [hval]
      trivial
  | @step D D' calls events st fuel limit i h₁ h ih =>
    obtain ⟨ih, ih'⟩ := ih
    obtain ⟨D₀, events₀, h1, h2, h3⟩ := h₁.alike H hL hE
    have hinv := h1.dreach.inv hL H (ι := AddMonoidHom.id T) (fun _ _ h => h) hE
    obtain ⟨x, hx⟩ : ∃ x, D.comps[i]? = some x := by
      cases hx : D.comps[i]? with
      | some x => exact ⟨x, rfl⟩
      | none =>
        exfalso
        simp only [Decomp.decompositionStep, Decomp.decompositionStepBounded, Decomp.comp, hx, bind, Except.bind] at h
        split at h <;> cases h
    rcases ih.step (fun _ _ h => h) hL h2 hinv hx fuel limit with ⟨st', D'', g1, g2, g3⟩ | ⟨g, -⟩ | ⟨_, g | ⟨g, _⟩⟩
    · rw [h] at g1
      cases g1
      refine ⟨?_, fun hc => g3 (ih' hc)⟩
      refine ⟨g2.nodup, g2.gone, g2.right.trans ?_, g2.left.trans ?_, g2.parallel⟩
      · rw [List.perm_iff_count]
        intro z
        have e : reported (List.filterMap DEvent.step? (events ++ [DEvent.step st])) = reported (List.filterMap DEvent.step? events) ++ st.connection.toList := by
          rw [List.filterMap_append, ← reported_concat]
          rfl
        simp only [e, List.flatMap_append, List.count_append]
        simp [DEvent.injectedRight]
        omega
      · rw [List.perm_iff_count]
        intro z
        have e : reported (List.filterMap DEvent.step? (events ++ [DEvent.step st])) = reported (List.filterMap DEvent.step? events) ++ st.connection.toList := by
          rw [List.filterMap_append, ← reported_concat]
          rfl
        simp only [e, List.flatMap_append, List.map_append, List.count_append]
        simp [DEvent.injectedLeft]
        omega
    · rw [h] at g; cases g
    · rw [h] at g; cases g
    · rw [h] at g; cases g
  | @inject D D' calls events l r g left right h₁ ha h ih =>
    obtain ⟨ih, ih'⟩ := ih
    obtain ⟨D₀, events₀, h1, h2, h3⟩ := h₁.alike H hL hE
    have hinv := h1.dreach.inv hL H (ι := AddMonoidHom.id T) (fun _ _ h => h) hE
    have hs : ∀ x ∈ D.comps, x.iet.swapped = false ∧ x.iet.bottom.Perm x.iet.top := fun x hx => by
      rw [h2.comps] at hx
      exact ⟨hinv.swapped x hx, (hinv.good x hx).ok.valid.perm⟩
    have e : reported (List.filterMap DEvent.step? (events ++ [DEvent.inject l r])) = reported (List.filterMap DEvent.step? events) := by
      rw [List.filterMap_append, show List.filterMap DEvent.step? [DEvent.inject l r] = [] from rfl, List.append_nil]
    have g2 := ih.inject (mem_halfEdges hs (hok _ _ _ _ ha)) h
    refine ⟨?_, fun hc => (ih' hc).inject (fun x hx => (hs x hx).1) (hc _ _ _ _ ha) h⟩
    rw [e, List.flatMap_append, List.flatMap_append, ← List.append_assoc, ← List.append_assoc]
    simpa [DEvent.injectedRight, DEvent.injectedLeft] using g2

/-- **C62.** If all connections that have been injected to the right of half edges (other than the last ones of their contour) are above each
other and start at the separatrix next to that half edge, then `decompositionStep()` returns in all cases in which it does so without
injections: a call can only fail to return if it has no limit. -/
theorem C62_step (H : LawfulLengths O c ε) {L : PPL} (hL : L.Lawful) {E : IET T} {s : σ} (hE : H.Ok E s)
    {D : Decomp σ T} {calls : List DCall} {events : List DEvent} (h : IReach L O E s Consistent D calls events) {i : ℕ} (hi : i < D.comps.length)
    (fuel : ℕ) (limit : ℤ) :
    (∃ step D', D.decompositionStep L O fuel limit i = .ok (step, D')) ∨
    (limit = -1 ∧ (D.decompositionStep L O fuel limit i = .error .fuel ∨
      (D.decompositionStep L O fuel limit i = .error .ub ∧
        ∃ x v E', D.comps[i]? = some x ∧ x.iet.safInvariant (LWC.ops O) D.lengths = .ok (v, E') ∧ ∀ q ∈ v, q = 0))) := by
  obtain ⟨hS, hC⟩ := h.stored H hL hE (fun _ _ _ _ h => h.1)
  obtain ⟨D₀, events₀, h1, h2, h3⟩ := h.alike H hL hE
  have hinv := h1.dreach.inv hL H (ι := AddMonoidHom.id T) (fun _ _ h => h) hE
  have hx : D.comps[i]? = some D.comps[i] := List.getElem?_eq_getElem hi
  have hx₀ : D.comps[i] ∈ D₀.comps := by rw [← h2.comps]; exact List.getElem_mem hi
  rcases hS.step (fun _ _ h => h) hL h2 hinv hx fuel limit with ⟨st', D'', g1, -⟩ | ⟨-, g⟩ | ⟨g0, g⟩
  · exact .inl ⟨st', D'', g1⟩
  · exact absurd (hC (fun _ _ _ _ h => h)) g
  · have e := safInvariant_spec (LWC.lawful H) (hinv.good _ hx₀).ok (hinv.good _ hx₀).cache
    rw [← (LWC.opsRel O).safInvariant _ _ _ h2.lengths] at e
    refine .inr ⟨g0, g.imp_right (fun g => ⟨g.1, D.comps[i], _, _, hx, e, ?_⟩)⟩
    have g2 := g.2
    rw [h2.lengths.inner] at g2
    exact g2

/-- **C62.** At any time, the connections to the right of all half edges of all components are the ones that have been reported and the ones that
have been injected on the right; the connections to their left are the reverses of the ones that have been reported and the ones that have been
injected on the left.  So no connection gets lost, and there are no others. -/
theorem C62_stored (H : LawfulLengths O c ε) {L : PPL} (hL : L.Lawful) {E : IET T} {s : σ} (hE : H.Ok E s)
    {D : Decomp σ T} {calls : List DCall} {events : List DEvent} (h : IReach L O E s (fun D h _ _ => h ∈ D.halfEdges) D calls events) :
    (∃ cs, D.halfEdges.mapM D.heRight = .ok cs ∧
      cs.flatten.Perm (reported (events.filterMap DEvent.step?) ++ events.flatMap DEvent.injectedRight)) ∧
    (∃ cs, D.halfEdges.mapM D.heLeft = .ok cs ∧
      cs.flatten.Perm ((reported (events.filterMap DEvent.step?)).map Conn.neg ++ events.flatMap DEvent.injectedLeft)) := by
  obtain ⟨hS, -⟩ := h.stored H hL hE (fun _ _ _ _ h => h)
  obtain ⟨D₀, events₀, h1, h2, h3⟩ := h.alike H hL hE
  have hinv := h1.dreach.inv hL H (ι := AddMonoidHom.id T) (fun _ _ h => h) hE
  have hs : ∀ x ∈ D.comps, x.iet.swapped = false ∧ x.iet.bottom.Perm x.iet.top := fun x hx => by
    rw [h2.comps] at hx
    exact ⟨hinv.swapped x hx, (hinv.good x hx).ok.valid.perm⟩
  obtain ⟨-, -, hp⟩ := C35_partition H hL hE h1.dreach
  rw [← h2.comps] at hp
  have hkeys : D.lengths.conns.keys = E.top := by
    obtain ⟨oc, -, ht⟩ := hinv.track
    rw [h2.lengths.keys]
    exact ht.keys
  have hk : ∀ g ∈ D.halfEdges, g.label ∈ D.lengths.conns.keys := fun g hg => by
    obtain ⟨x, hx, hl⟩ := mem_halfEdges hs hg
    rw [hkeys]
    exact hp.mem_iff.mp (List.mem_append_left _ (List.mem_flatMap.mpr ⟨x, hx, hl⟩))
  have key : ∀ f g : Conns → List Conn, f {} = [] → g {} = [] →
      (D.halfEdges.flatMap (fun h => if h.top then f (D.lengths.conns.val h.label) else g (D.lengths.conns.val h.label))).Perm
        (D.lengths.conns.keys.flatMap (fun l => f (D.lengths.conns.val l) ++ g (D.lengths.conns.val l))) := by
    intro f g hf hg
    rw [hkeys]
    refine List.Perm.trans ?_ (perm_gone hE.valid.nodup hp ?_)
    · unfold Decomp.halfEdges
      rw [List.flatMap_assoc, List.flatMap_assoc]
      rw [← flatMap_zipIdx (fun x : Comp T => x.iet.top.flatMap (fun l => f (D.lengths.conns.val l) ++ g (D.lengths.conns.val l))) D.comps]
      refine flatMap_perm_congr ?_
      rintro ⟨x, i⟩ hx
      obtain ⟨h1, h2⟩ := hs x (List.fst_mem_of_mem_zipIdx hx)
      simp only [Comp.topContour, Comp.bottomContour, h1, Bool.false_eq_true, if_false, List.flatMap_append, List.flatMap_map, if_true]
      refine List.Perm.trans ((h2.flatMap_right _).append_left _) ?_
      exact (flatMap_append_perm' (fun l => f (D.lengths.conns.val l)) (fun l => g (D.lengths.conns.val l)) x.iet.top).symm
    · intro l hl
      rw [hS.gone l (fun x hx hl' => hl (List.mem_flatMap.mpr ⟨x, hx, hl'⟩)), hf, hg]
      rfl
  constructor
  · refine ⟨D.halfEdges.map (fun h => if h.top then (D.lengths.conns.val h.label).topRight else (D.lengths.conns.val h.label).bottomRight), ?_, ?_⟩
    · refine mapM_ok (fun g hg => ?_)
      simp only [Decomp.heRight, Decomp.connections_ok (hk g hg), bind, Except.bind, pure, Except.pure]
    · rw [← List.flatMap_def]
      exact (key Conns.topRight Conns.bottomRight rfl rfl).trans hS.right
  · refine ⟨D.halfEdges.map (fun h => if h.top then (D.lengths.conns.val h.label).topLeft else (D.lengths.conns.val h.label).bottomLeft), ?_, ?_⟩
    · refine mapM_ok (fun g hg => ?_)
      simp only [Decomp.heLeft, Decomp.connections_ok (hk g hg), bind, Except.bind, pure, Except.pure]
    · rw [← List.flatMap_def]
      exact (key Conns.topLeft Conns.bottomLeft rfl rfl).trans hS.left

theorem IsChain.upFrom : ∀ {l : Label} {cs : List Conn}, IsChain l cs → UpFrom l (cs.map (fun c => (c.source.label, c.target.label)))
  | _, [], _ => trivial
  | _, _ :: _, ⟨h1, h2⟩ => ⟨by simp only [h1], IsChain.upFrom h2⟩

theorem IsChainTop.downFrom : ∀ {l : Label} {cs : List Conn}, IsChainTop l cs → DownFrom l (cs.map (fun c => (c.source.label, c.target.label)))
  | _, [], _ => trivial
  | _, _ :: _, ⟨h1, h2⟩ => ⟨by simp only [h1], IsChainTop.downFrom h2⟩

/-- **C62.** And then at any time the connections to the right of each half edge other than the last ones, from the half edge towards the interior of the
component, are above each other and start at the separatrix next to the half edge. -/
theorem C62_above (H : LawfulLengths O c ε) {L : PPL} (hL : L.Lawful) {E : IET T} {s : σ} (hE : H.Ok E s)
    {D : Decomp σ T} {calls : List DCall} {events : List DEvent} (h : IReach L O E s Consistent D calls events) {i : ℕ} {x : Comp T}
    (hi : D.comps[i]? = some x) :
    (∀ l ∈ x.bottomContour.dropLast, ∃ cs, D.heRight ⟨i, l, false⟩ = .ok cs ∧ UpFrom l (cs.map (fun c => (c.source.label, c.target.label)))) ∧
    (∀ l ∈ x.topContour.dropLast, ∃ cs, D.heRight ⟨i, l, true⟩ = .ok cs ∧ DownFrom l (cs.reverse.map (fun c => (c.source.label, c.target.label)))) := by
  obtain ⟨-, hC⟩ := h.stored H hL hE (fun _ _ _ _ h => h.1)
  have hC := hC (fun _ _ _ _ h => h)
  obtain ⟨D₀, events₀, h1, h2, h3⟩ := h.alike H hL hE
  have hinv := h1.dreach.inv hL H (ι := AddMonoidHom.id T) (fun _ _ h => h) hE
  have hx := List.mem_of_getElem? hi
  have hx₀ : x ∈ D₀.comps := by rw [← h2.comps]; exact hx
  have hsw := hinv.swapped x hx₀
  have hk : ∀ l ∈ x.iet.top, l ∈ D.lengths.conns.keys := by
    intro l hl
    obtain ⟨oc, -, ht⟩ := hinv.track
    have hkeys : D₀.lengths.conns.keys = E.top := ht.keys
    rw [h2.lengths.keys, hkeys]
    obtain ⟨-, -, hp⟩ := C35_partition H hL hE h1.dreach
    exact hp.mem_iff.mp (List.mem_append_left _ (List.mem_flatMap.mpr ⟨x, hx₀, hl⟩))
  simp only [Comp.bottomContour, Comp.topContour, hsw, Bool.false_eq_true, if_false]
  constructor
  · intro l hl
    refine ⟨(D.lengths.conns.val l).bottomRight, ?_, (hC.bottom x hx l hl).upFrom⟩
    have := hk l ((hinv.good x hx₀).ok.valid.perm.mem_iff.mp (List.mem_of_mem_dropLast hl))
    simp [Decomp.heRight, Decomp.connections_ok this, bind, Except.bind, pure, Except.pure]
  · intro l hl
    refine ⟨(D.lengths.conns.val l).topRight, ?_, (hC.top x hx l hl).downFrom⟩
    have := hk l (List.mem_of_mem_dropLast hl)
    simp [Decomp.heRight, Decomp.connections_ok this, bind, Except.bind, pure, Except.pure]

/-! ### Examples -/

namespace Examples

/-- The IET in dynamical_decomposition.test.cc:463-465. -/
def injIET : IET ℤ := .fresh [0, 1] [1, 0]
/-- Its lengths. -/
def injState : SLengths ℤ := ⟨[], [1, 1, 0, 0, 0, 0]⟩

theorem inj_ok : hInt.Ok injIET injState := sample_ok _ _ _ _ (by decide)

/-- The injections in dynamical_decomposition.test.cc:471-474, and then the steps of `decompose()`. -/
def injCalls : List DCall := [.inject ⟨0, 0, true⟩ [(2, 0), (5, 4), (0, 3)] [(3, 0)], .inject ⟨0, 1, true⟩ [(4, 1)] [],
  .inject ⟨0, 1, false⟩ [] [(1, 4), (4, 5)], .inject ⟨0, 0, false⟩ [] [(0, 2)], .step 20 (-1) 0, .step 20 (-1) 0]

/-- What can be observed. -/
def injSummary (r : M (List DEvent × Decomp (SLengths ℤ) ℤ)) : M (List (Option (DResult × Option Conn)) × List Side) := do
  let (events, D) ← r
  return (events.map (fun e => e.step?.map (fun st => (st.result, st.connection))), ← D.perimeter 0)

theorem inj_run (L : PPL) : injSummary (do (← Decomp.make (SLengths.ops intArith) injIET injState).execute L (SLengths.ops intArith) injCalls) =
    .ok ([none, none, none, none, some (.nonSeparatingConnection, some ⟨⟨5, true⟩, ⟨3, false⟩⟩), some (.cylinder, none)],
     [.edge ⟨0, 1, false⟩, .conn ⟨⟨1, true⟩, ⟨4, false⟩⟩, .conn ⟨⟨4, true⟩, ⟨5, false⟩⟩, .conn ⟨⟨5, true⟩, ⟨3, false⟩⟩, .conn ⟨⟨3, true⟩, ⟨0, false⟩⟩,
      .conn ⟨⟨0, true⟩, ⟨2, false⟩⟩, .edge ⟨0, 1, true⟩, .conn ⟨⟨4, false⟩, ⟨1, true⟩⟩, .conn ⟨⟨3, false⟩, ⟨5, true⟩⟩, .conn ⟨⟨2, false⟩, ⟨0, true⟩⟩,
      .conn ⟨⟨5, false⟩, ⟨4, true⟩⟩, .conn ⟨⟨0, false⟩, ⟨3, true⟩⟩]) := rfl

/-- These injections are consistent. -/
theorem inj_reach (L : PPL) : ∃ D events, IReach L (SLengths.ops intArith) injIET injState Consistent D injCalls events ∧
    D.perimeter 0 = .ok [.edge ⟨0, 1, false⟩, .conn ⟨⟨1, true⟩, ⟨4, false⟩⟩, .conn ⟨⟨4, true⟩, ⟨5, false⟩⟩, .conn ⟨⟨5, true⟩, ⟨3, false⟩⟩, .conn ⟨⟨3, true⟩, ⟨0, false⟩⟩,
      .conn ⟨⟨0, true⟩, ⟨2, false⟩⟩, .edge ⟨0, 1, true⟩, .conn ⟨⟨4, false⟩, ⟨1, true⟩⟩, .conn ⟨⟨3, false⟩, ⟨5, true⟩⟩, .conn ⟨⟨2, false⟩, ⟨0, true⟩⟩,
      .conn ⟨⟨5, false⟩, ⟨4, true⟩⟩, .conn ⟨⟨0, false⟩, ⟨3, true⟩⟩] := by
  refine ⟨_, _, .step 20 (-1) 0 (.step 20 (-1) 0 (.inject ⟨0, 0, false⟩ [] [(0, 2)] (.inject ⟨0, 1, false⟩ [] [(1, 4), (4, 5)]
    (.inject ⟨0, 1, true⟩ [(4, 1)] [] (.inject ⟨0, 0, true⟩ [(2, 0), (5, 4), (0, 3)] [(3, 0)] (.init rfl) ⟨?_, ?_⟩ rfl) ⟨?_, ?_⟩ rfl) ⟨?_, ?_⟩ rfl)
    ⟨?_, ?_⟩ rfl) rfl) rfl, rfl⟩ <;> decide

end Examples

open Examples in
/-- **C62.** If the connections do not start at the separatrix next to the half edge, then a step fails. -/
theorem C62_inconsistent (L : PPL) : ∃ D, IReach L (SLengths.ops intArith) injIET injState (fun D h _ _ => h ∈ D.halfEdges) D
    [.inject ⟨0, 1, false⟩ [] [(4, 5)]] [.inject [] [⟨⟨4, true⟩, ⟨5, false⟩⟩]] ∧ ∀ fuel, D.decompositionStep L (SLengths.ops intArith) fuel 0 0 = .error .assertFailed := by
  refine ⟨_, .inject ⟨0, 1, false⟩ [] [(4, 5)] (.init rfl) ?_ rfl, fun _ => rfl⟩
  decide

open Examples in
/-- The theorems apply. -/
example (L : PPL) (hL : L.Lawful) : ∃ D events, IReach L (SLengths.ops intArith) injIET injState Consistent D injCalls events ∧
    (∃ step D', D.decompositionStep L (SLengths.ops intArith) 0 7 0 = .ok (step, D')) ∧
    ∃ D₀ events₀, IReach L (SLengths.ops intArith) injIET injState (fun _ _ _ _ => False) D₀ [.step 20 (-1) 0, .step 20 (-1) 0] events₀ ∧ D.comps = D₀.comps := by
  obtain ⟨D, events, h, hp⟩ := inj_reach L
  obtain ⟨D₀, events₀, h1, -, -, h2, -⟩ := C62_dynamics hInt hL inj_ok h
  refine ⟨D, events, h, ?_, D₀, events₀, h1, h2⟩
  have hi : 0 < D.comps.length := by
    rcases hc : D.comps with _ | ⟨x, xs⟩
    · simp only [Decomp.perimeter, Decomp.bottom, Decomp.bottomContour, Decomp.comp, hc, bind, Except.bind] at hp
      cases hp
    · simp
  rcases C62_step hInt hL inj_ok h hi 0 7 with h | ⟨h, -⟩
  · exact h
  · cases h

end Verif
