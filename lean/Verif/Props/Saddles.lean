import Verif.Proofs.Saddle
import Verif.Proofs.Partition
import Verif.Props.Minimal
import Verif.Props.Itineraries

/-!
# C78, C79: a complete decomposition finds all saddle connections, and its components are determined by the dynamics
-/

namespace Verif

set_option linter.unusedSectionVars false

variable {σ T ε : Type} [CommRing T] [LinearOrder T] [IsStrictOrderedRing T] {O : LengthsOps σ T} {d : ℕ} {c : T →+ (Fin d → ℚ)}
variable {P : Type} [CommRing P] [LinearOrder P] [IsStrictOrderedRing P]

/-! ### C78 -/

/-- **C78** Every connection that is reported is a saddle connection of the original IET: the orbit of the right end point of the bottom interval gets to the right end
point of the top interval and there is no other end point on the way. -/
theorem C78_saddle (H : LawfulLengths O c ε) {L : PPL} (hL : L.Lawful) {E : IET T} {s : σ} (hE : H.Ok E s)
    {D : Decomp σ T} {steps : List DStep} (h : DReach L O E s D steps) {st : DStep} (hst : st ∈ steps) {conn : Conn}
    (hconn : st.connection = some conn) {ι : T →+ P} (hι : StrictMono ι) :
    ∃ b t, conn = ⟨⟨b, true⟩, ⟨t, false⟩⟩ ∧ ((H.abs E s).map ι).Saddle b t := by
  obtain ⟨oc, h1, h2⟩ := (h.inv hL H hι hE).track
  have hm : conn ∈ reported steps := List.mem_filterMap.mpr ⟨st, hst, hconn⟩
  refine ⟨conn.source.label, conn.target.label, ?_, h2.saddle hm⟩
  obtain ⟨g1, g2⟩ := h2.shape conn hm
  obtain ⟨⟨a, p⟩, ⟨b, q⟩⟩ := conn
  simp only at g1 g2 ⊢
  rw [g1, g2]

/-- **C78** No connection is reported twice; in fact, no two connections that are reported have the same source or the same target. -/
theorem C78_once (H : LawfulLengths O c ε) {L : PPL} (hL : L.Lawful) {E : IET T} {s : σ} (hE : H.Ok E s)
    {D : Decomp σ T} {steps : List DStep} (h : DReach L O E s D steps) :
    ((steps.filterMap DStep.connection).map (fun c => c.source.label)).Nodup ∧ ((steps.filterMap DStep.connection).map (fun c => c.target.label)).Nodup := by
  obtain ⟨oc, h1, h2⟩ := (h.inv hL H (ι := AddMonoidHom.id T) (fun _ _ h => h) hE).track
  have n1 := (h2.sources.nodup_iff.mpr (h2.base.inv.nodup.sublist (List.dropLast_sublist _)))
  have n2 := (h2.targets.nodup_iff.mpr (h2.base.nodup.sublist (List.dropLast_sublist _)))
  exact ⟨(List.nodup_append.mp n1).2.1, (List.nodup_append.mp n2).2.1⟩

theorem mem_reverse_tail {l : List Label} {a : Label} : a ∈ l.reverse.tail ↔ a ∈ l.dropLast := by
  rw [List.tail_reverse, List.mem_reverse]

/-- **C78** When a decomposition is complete, then all the saddle connections of the original IET have been reported, and only those. -/
theorem C78_complete (H : LawfulLengths O c ε) {L : PPL} (hL : L.Lawful) {E : IET T} {s : σ} (hE : H.Ok E s)
    {D : Decomp σ T} {steps : List DStep} (h : DReach L O E s D steps) (hD : D.Complete H) (b t : Label) :
    (H.abs E s).Saddle b t ↔ ∃ st ∈ steps, st.connection = some ⟨⟨b, true⟩, ⟨t, false⟩⟩ := by
  constructor
  · intro hs
    obtain ⟨oc, h1, h2⟩ := (h.inv hL H (ι := AddMonoidHom.id T) (fun _ _ h => h) hE).track
    refine List.mem_filterMap.mp (h2.saddle_mem (fun p hp b hb t ht hr => ?_) hs)
    obtain ⟨q, hq, rfl⟩ := List.mem_map.mp hp
    obtain ⟨n, hn⟩ := exists_iter_of_reach hr
    exact hD q.2 (by rw [← h1]; exact List.mem_map_of_mem hq) ⟨t, mem_reverse_tail.mpr ht, b, mem_reverse_tail.mpr hb, n, hn⟩
  · rintro ⟨st, hst, hc⟩
    obtain ⟨b', t', e, hs⟩ := C78_saddle H hL hE h hst hc (ι := AddMonoidHom.id T) (fun _ _ h => h)
    cases e
    exact hs

theorem reported_nodup (H : LawfulLengths O c ε) {L : PPL} (hL : L.Lawful) {E : IET T} {s : σ} (hE : H.Ok E s)
    {D : Decomp σ T} {steps : List DStep} (h : DReach L O E s D steps) : (steps.filterMap DStep.connection).Nodup :=
  .of_map _ (C78_once H hL hE h).1

/-- **C78** Any two complete decompositions of an IET report the same connections, in some order. -/
theorem C78_same (H : LawfulLengths O c ε) {L : PPL} (hL : L.Lawful) {E : IET T} {s : σ} (hE : H.Ok E s) {D₁ D₂ : Decomp σ T}
    {steps₁ steps₂ : List DStep} (h₁ : DReach L O E s D₁ steps₁) (h₂ : DReach L O E s D₂ steps₂) (hD₁ : D₁.Complete H) (hD₂ : D₂.Complete H) :
    (steps₁.filterMap DStep.connection).Perm (steps₂.filterMap DStep.connection) := by
  have key : ∀ {D₁ D₂ : Decomp σ T} {steps₁ steps₂ : List DStep}, DReach L O E s D₁ steps₁ → DReach L O E s D₂ steps₂ → D₂.Complete H →
      ∀ c, c ∈ steps₁.filterMap DStep.connection → c ∈ steps₂.filterMap DStep.connection := by
    intro D₁ D₂ steps₁ steps₂ h₁ h₂ hD₂ c hc
    obtain ⟨st, hst, hc⟩ := List.mem_filterMap.mp hc
    obtain ⟨b, t, rfl, hs⟩ := C78_saddle H hL hE h₁ hst hc (ι := AddMonoidHom.id T) (fun _ _ h => h)
    exact List.mem_filterMap.mpr ((C78_complete H hL hE h₂ hD₂ b t).mp hs)
  exact (List.perm_ext_iff_of_nodup (reported_nodup H hL hE h₁) (reported_nodup H hL hE h₂)).mpr
    (fun c => ⟨key h₁ h₂ hD₂ c, key h₂ h₁ hD₁ c⟩)

/-- The connection traversed in the opposite direction, in terms of the inverse transformation. -/
def swappedConn (c : Conn) : Conn := ⟨⟨c.target.label, true⟩, ⟨c.source.label, false⟩⟩

/-- **C78** A complete decomposition of the IET with `swap()` applied to it, i.e., of the inverse transformation, reports the same connections as a complete
decomposition of the IET, in some order and with sources and targets exchanged. -/
theorem C78_swap (H : LawfulLengths O c ε) {L : PPL} (hL : L.Lawful) {E : IET T} {s : σ} (hE : H.Ok E s) {D₁ D₂ : Decomp σ T}
    {steps₁ steps₂ : List DStep} (h₁ : DReach L O E s D₁ steps₁) (h₂ : DReach L O E.swap s D₂ steps₂) (hD₁ : D₁.Complete H) (hD₂ : D₂.Complete H) :
    ((steps₁.filterMap DStep.connection).map swappedConn).Perm (steps₂.filterMap DStep.connection) := by
  have n1 : ((steps₁.filterMap DStep.connection).map swappedConn).Nodup := by
    refine .of_map (fun c : Conn => c.source.label) ?_
    rw [List.map_map]
    exact (C78_once H hL hE h₁).2
  refine (List.perm_ext_iff_of_nodup n1 (reported_nodup H hL hE.swap h₂)).mpr (fun c => ⟨fun hc => ?_, fun hc => ?_⟩)
  · obtain ⟨c', hc', rfl⟩ := List.mem_map.mp hc
    obtain ⟨st, hst, hc'⟩ := List.mem_filterMap.mp hc'
    obtain ⟨b, t, rfl, hs⟩ := C78_saddle H hL hE h₁ hst hc' (ι := AddMonoidHom.id T) (fun _ _ h => h)
    refine List.mem_filterMap.mpr ((C78_complete H hL hE.swap h₂ hD₂ t b).mp ?_)
    rw [H.abs_swap]
    exact hE.valid.saddle_inv.mpr hs
  · obtain ⟨st, hst, hc⟩ := List.mem_filterMap.mp hc
    obtain ⟨t, b, rfl, hs⟩ := C78_saddle H hL hE.swap h₂ hst hc (ι := AddMonoidHom.id T) (fun _ _ h => h)
    have hs' : (H.abs E s).Saddle b t := by
      rw [AIET.map_id', H.abs_swap] at hs
      exact hE.valid.saddle_inv.mp hs
    exact List.mem_map.mpr ⟨_, List.mem_filterMap.mpr ((C78_complete H hL hE h₁ hD₁ b t).mp hs'), rfl⟩

/-! ### C79 -/

theorem DReach.parts [Archimedean T] (H : LawfulLengths O c ε) {L : PPL} (hL : L.Lawful) {E : IET T} {s : σ} (hE : H.Ok E s) {D : Decomp σ T}
    {steps : List DStep} (h : DReach L O E s D steps) (hD : D.Complete H) :
    ∃ os : List T, os.length = D.comps.length ∧ Parts (H.abs E s) (os.zip (D.comps.map (fun x => H.abs x.iet D.lengths.inner))) := by
  obtain ⟨oc, h1, h2⟩ := (h.inv hL H (ι := AddMonoidHom.id T) (fun _ _ h => h) hE).track
  have e : (oc.map Prod.fst).zip (D.comps.map (fun x => H.abs x.iet D.lengths.inner)) = pcs H (AddMonoidHom.id T) D.lengths.inner oc := pcs_zip H (AddMonoidHom.id T) h1
  refine ⟨oc.map Prod.fst, by rw [← h1]; simp, ?_⟩
  rw [e]
  refine ⟨h2.cover, fun p hp x y hxy => (h2.meets_iff hp hxy).mp, fun p hp hl x y hx hy => (h2.twins_iff hp hl hx y).mpr hy, fun p hp hl => ?_,
    fun p hp hl => ?_⟩ <;> obtain ⟨q, hq, rfl⟩ := List.mem_map.mp hp <;> have hq' : q.2 ∈ D.comps := by rw [← h1]; exact List.mem_map_of_mem hq
  · exact (C75_component H hL hE h (ι := AddMonoidHom.id T) (fun _ _ h => h) hq' (hD _ hq')).resolve_left hl
  · exact (hD.settled (h.valid hL H hE) _ hq').resolve_left hl

/-- **C79** The components of a complete decomposition are determined by the orbits of the original IET: when two decompositions are complete, then each component of
the first one corresponds to a component of the second one such that the same orbits meet the two.  Cylinders correspond to cylinders. -/
theorem C79_components [Archimedean T] (H : LawfulLengths O c ε) {L : PPL} (hL : L.Lawful) {E : IET T} {s : σ} (hE : H.Ok E s) {D₁ D₂ : Decomp σ T}
    {steps₁ steps₂ : List DStep} (h₁ : DReach L O E s D₁ steps₁) (h₂ : DReach L O E s D₂ steps₂) (hD₁ : D₁.Complete H) (hD₂ : D₂.Complete H) :
    ∃ os₁ os₂ : List T, os₁.length = D₁.comps.length ∧ os₂.length = D₂.comps.length ∧
      Covers (H.abs E s) (os₁.zip (D₁.comps.map (fun x => H.abs x.iet D₁.lengths.inner))) ∧
      Covers (H.abs E s) (os₂.zip (D₂.comps.map (fun x => H.abs x.iet D₂.lengths.inner))) ∧
      ∀ p ∈ os₁.zip (D₁.comps.map (fun x => H.abs x.iet D₁.lengths.inner)),
        ∃ q ∈ os₂.zip (D₂.comps.map (fun x => H.abs x.iet D₂.lengths.inner)),
          (∀ x, Meets (H.abs E s) p x ↔ Meets (H.abs E s) q x) ∧ (p.2.top.length = 1 ↔ q.2.top.length = 1) := by
  obtain ⟨os₁, g1, g2⟩ := h₁.parts H hL hE hD₁
  obtain ⟨os₂, g3, g4⟩ := h₂.parts H hL hE hD₂
  exact ⟨os₁, os₂, g1, g3, g2.cover, g4.cover, fun p hp => g2.eq hE.valid g4 hp⟩

/-- **C79** The same is true for a complete decomposition of the IET and one of the IET with `swap()` applied to it, i.e., of the inverse transformation. -/
theorem C79_swap [Archimedean T] (H : LawfulLengths O c ε) {L : PPL} (hL : L.Lawful) {E : IET T} {s : σ} (hE : H.Ok E s) {D₁ D₂ : Decomp σ T}
    {steps₁ steps₂ : List DStep} (h₁ : DReach L O E s D₁ steps₁) (h₂ : DReach L O E.swap s D₂ steps₂) (hD₁ : D₁.Complete H) (hD₂ : D₂.Complete H) :
    ∃ os₁ os₂ : List T, os₁.length = D₁.comps.length ∧ os₂.length = D₂.comps.length ∧
      Covers (H.abs E s) (os₁.zip (D₁.comps.map (fun x => H.abs x.iet D₁.lengths.inner))) ∧
      Covers (H.abs E s).inv (os₂.zip (D₂.comps.map (fun x => H.abs x.iet D₂.lengths.inner))) ∧
      ∀ p ∈ os₁.zip (D₁.comps.map (fun x => H.abs x.iet D₁.lengths.inner)),
        ∃ q ∈ os₂.zip (D₂.comps.map (fun x => H.abs x.iet D₂.lengths.inner)),
          (∀ x, Meets (H.abs E s) p x ↔ Meets (H.abs E s).inv q x) ∧ (p.2.top.length = 1 ↔ q.2.top.length = 1) := by
  have hA := hE.valid
  obtain ⟨os₁, g1, g2⟩ := h₁.parts H hL hE hD₁
  obtain ⟨os₂, g3, g4⟩ := h₂.parts H hL hE.swap hD₂
  rw [H.abs_swap] at g4
  have g5 := g4.inv hA.inv
  rw [AIET.inv_inv] at g5
  refine ⟨os₁, os₂, g1, g3, g2.cover, g4.cover, fun p hp => ?_⟩
  obtain ⟨q, hq, h3, h4⟩ := g2.eq hA g5 hp
  obtain ⟨q', hq', rfl⟩ := List.mem_map.mp hq
  have hv := g4.cover.valid q' hq'
  have hm := g4.cover.maps q' hq'
  refine ⟨q', hq', fun x => ?_, h4.trans ?_⟩
  · rw [h3 x]
    refine ⟨fun hx => Covers.meets_inv hA.inv hv hm ?_, fun hx => ?_⟩
    · rw [AIET.inv_inv]; exact hx
    · have hi := hA.inv.maps_invPiece hv hm
      rw [AIET.inv_inv] at hi
      refine Covers.meets_inv (p := invPiece q') hA hv.inv hi ?_
      exact hx
  · simp only [invPiece, AIET.inv]
    rw [hv.perm.length_eq]

theorem DReach.reported_length (H : LawfulLengths O c ε) {L : PPL} (hL : L.Lawful) {E : IET T} {s : σ} (hE : H.Ok E s) {D : Decomp σ T}
    {steps : List DStep} (h : DReach L O E s D steps) :
    (steps.filterMap DStep.connection).length = separatingCount steps + nonSeparatingCount steps := by
  obtain ⟨oc, h1, h2⟩ := (h.inv hL H (ι := AddMonoidHom.id T) (fun _ _ h => h) hE).track
  obtain ⟨c1, c2⟩ := h.counts H hL hE
  have h3 := h2.targets.length_eq
  have hpos : ∀ x ∈ D.comps, 0 < x.iet.top.length := fun x hx => List.length_pos_of_ne_nil (h.labels H hL hE hx).2.1
  have h4 : ((pcs H (AddMonoidHom.id T) D.lengths.inner oc).flatMap (fun p => p.2.top.dropLast)).length + D.comps.length = D.intervals := by
    unfold Decomp.intervals pcs
    rw [← h1] at hpos ⊢
    clear * - hpos
    induction oc with
    | nil => rfl
    | cons q oc ih =>
      have h5 := ih (fun x hx => hpos x (by simp only [List.map_cons]; exact List.mem_cons_of_mem _ hx))
      have h6 := hpos q.2 (by simp)
      simp only [List.map_cons, List.flatMap_cons, List.length_append, List.length_cons, List.sum_cons, List.length_dropLast] at h5 ⊢
      simp only [AIET.map, LawfulLengths.abs] at h5 ⊢
      omega
  have h5 : 0 < E.top.length := List.length_pos_of_ne_nil hE.valid.ne_nil
  simp only [List.length_append, List.length_map, List.length_dropLast] at h3
  have h6 : ((H.abs E s).map (AddMonoidHom.id T)).top.length = E.top.length := rfl
  rw [h6] at h3
  show (reported steps).length = _
  omega

/-- **C79** A complete decomposition of the IET and one of the IET with `swap()` applied to it have the same number of components, they have reported the same
number of separating and of non-separating connections. -/
theorem C79_swap_counts [Archimedean T] (H : LawfulLengths O c ε) {L : PPL} (hL : L.Lawful) {E : IET T} {s : σ} (hE : H.Ok E s) {D₁ D₂ : Decomp σ T}
    {steps₁ steps₂ : List DStep} (h₁ : DReach L O E s D₁ steps₁) (h₂ : DReach L O E.swap s D₂ steps₂) (hD₁ : D₁.Complete H) (hD₂ : D₂.Complete H) :
    D₁.comps.length = D₂.comps.length ∧ separatingCount steps₁ = separatingCount steps₂ ∧ nonSeparatingCount steps₁ = nonSeparatingCount steps₂ := by
  have hA := hE.valid
  obtain ⟨os₁, g1, g2⟩ := h₁.parts H hL hE hD₁
  obtain ⟨os₂, g3, g4⟩ := h₂.parts H hL hE.swap hD₂
  rw [H.abs_swap] at g4
  have g5 := g4.inv hA.inv
  rw [AIET.inv_inv] at g5
  have k1 := g2.length_le hA g5
  have k2 := g5.length_le hA g2
  simp only [List.length_map, List.length_zip, g1, g3, min_self] at k1 k2
  have r1 := h₁.reported_length H hL hE
  have r2 := h₂.reported_length H hL hE.swap
  have r3 := (C78_swap H hL hE h₁ h₂ hD₁ hD₂).length_eq
  rw [List.length_map] at r3
  obtain ⟨c1, -⟩ := h₁.counts H hL hE
  obtain ⟨c2, -⟩ := h₂.counts H hL hE.swap
  omega

/-! ### Examples -/

namespace Examples

/-- The connections that are reported and the labels of the components. -/
noncomputable def connectionsAfter (E : IET ℤ) (calls : List (ℤ × ℕ)) : Option (List Conn × List (List Label)) :=
  match Decomp.runFrom PPL.ideal (SLengths.ops intArith) E twoState 20 calls with
  | .ok (r : List DStep × Decomp (SLengths ℤ) ℤ) => some (r.1.filterMap DStep.connection, r.2.comps.map (fun x : Comp ℤ => x.iet.top))
  | .error _ => none

theorem of_connectionsAfter {E : IET ℤ} {calls : List (ℤ × ℕ)} {cs : List Conn} {ls : List (List Label)}
    (h : connectionsAfter E calls = some (cs, ls)) : ∃ steps D, DReach PPL.ideal (SLengths.ops intArith) E twoState D steps ∧
      steps.filterMap DStep.connection = cs ∧ D.comps.map (fun x : Comp ℤ => x.iet.top) = ls := by
  unfold connectionsAfter at h
  split at h
  · rename_i r hr
    cases h
    exact ⟨r.1, r.2, .runFrom hr, rfl, rfl⟩
  · cases h

theorem complete_of_singles {D : Decomp (SLengths ℤ) ℤ} {ls : List (List Label)} (h : D.comps.map (fun x : Comp ℤ => x.iet.top) = ls)
    (hl : ∀ l ∈ ls, l.length = 1) : D.Complete hInt := by
  rintro x hx ⟨t, ht, -⟩
  obtain ⟨a, ha⟩ := List.length_eq_one_iff.mp (hl _ (h ▸ List.mem_map_of_mem (f := fun x : Comp ℤ => x.iet.top) hx))
  simp only [LawfulLengths.abs, ha] at ht
  simp at ht

theorem two_connections : connectionsAfter twoIET [(0, 0), (-1, 1), (-1, 0), (-1, 0), (-1, 1), (-1, 1)] =
    some ([⟨⟨0, true⟩, ⟨1, false⟩⟩, ⟨⟨4, true⟩, ⟨2, false⟩⟩, ⟨⟨1, true⟩, ⟨0, false⟩⟩, ⟨⟨3, true⟩, ⟨3, false⟩⟩], [[1], [3], [4]]) := rfl

/-- The same connections in another order. -/
theorem two_connections' : connectionsAfter twoIET [(2, 0), (1, 0), (-1, 1), (3, 1), (-1, 0), (-1, 2)] =
    some ([⟨⟨0, true⟩, ⟨1, false⟩⟩, ⟨⟨1, true⟩, ⟨0, false⟩⟩, ⟨⟨4, true⟩, ⟨2, false⟩⟩, ⟨⟨3, true⟩, ⟨3, false⟩⟩], [[1], [3], [4]]) := rfl

/-- The connections of the inverse are the same, with sources and targets exchanged. -/
theorem two_connections_swapped : connectionsAfter twoIET.swap [(-1, 0), (-1, 1), (-1, 0), (-1, 0), (-1, 1), (-1, 1)] =
    some ([⟨⟨1, true⟩, ⟨0, false⟩⟩, ⟨⟨2, true⟩, ⟨4, false⟩⟩, ⟨⟨0, true⟩, ⟨1, false⟩⟩, ⟨⟨3, true⟩, ⟨3, false⟩⟩], [[0], [3], [2]]) := rfl

/-- So these are all the saddle connections of this IET. -/
example (b t : Label) : (hInt.abs twoIET twoState).Saddle b t ↔ (b, t) ∈ [(0, 1), (4, 2), (1, 0), (3, 3)] := by
  obtain ⟨steps, D, h1, h2, h3⟩ := of_connectionsAfter two_connections
  rw [C78_complete hInt PPL.ideal_lawful two_ok h1 (complete_of_singles h3 (by decide)), ← List.mem_filterMap, h2]
  simp

/-- The right end point 19 of the bottom interval 3 is mapped to 31 and to the right end point 25 of the top interval 3. -/
example : (hInt.abs twoIET twoState).Saddle 3 3 :=
  ⟨by decide, by decide, .head (b := (31 : ℤ)) ⟨⟨2, by decide, by decide, by decide⟩, 2, by decide, by decide, by decide, by decide⟩
    (.single ⟨⟨4, by decide, by decide, by decide⟩, 4, by decide, by decide, by decide, by decide⟩)⟩

/-- The right end point 28 of the bottom interval 4 is mapped to 22, the right end point of the top interval 2.  So there is no saddle connection from there to
another end point. -/
example : ¬ (hInt.abs twoIET twoState).Saddle 4 3 := by
  obtain ⟨steps, D, h1, h2, h3⟩ := of_connectionsAfter two_connections
  rw [C78_complete hInt PPL.ideal_lawful two_ok h1 (complete_of_singles h3 (by decide)), ← List.mem_filterMap, h2]
  simp

/-- All three decompositions are complete, so `C78_same`, `C78_swap` and `C79_swap_counts` apply to them. -/
example : ∃ D₁ D₂ D₃ steps₁ steps₂ steps₃, DReach PPL.ideal (SLengths.ops intArith) twoIET twoState D₁ steps₁ ∧
    DReach PPL.ideal (SLengths.ops intArith) twoIET twoState D₂ steps₂ ∧ DReach PPL.ideal (SLengths.ops intArith) twoIET.swap twoState D₃ steps₃ ∧
    steps₁.filterMap DStep.connection ≠ steps₂.filterMap DStep.connection ∧
    (steps₁.filterMap DStep.connection).Perm (steps₂.filterMap DStep.connection) ∧
    ((steps₁.filterMap DStep.connection).map swappedConn).Perm (steps₃.filterMap DStep.connection) ∧
    separatingCount steps₁ = separatingCount steps₃ ∧ nonSeparatingCount steps₁ = nonSeparatingCount steps₃ := by
  obtain ⟨st₁, D₁, h1, h2, h3⟩ := of_connectionsAfter two_connections
  obtain ⟨st₂, D₂, g1, g2, g3⟩ := of_connectionsAfter two_connections'
  obtain ⟨st₃, D₃, k1, k2, k3⟩ := of_connectionsAfter two_connections_swapped
  have c1 := complete_of_singles h3 (by decide)
  have c2 := complete_of_singles g3 (by decide)
  have c3 := complete_of_singles k3 (by decide)
  refine ⟨D₁, D₂, D₃, st₁, st₂, st₃, h1, g1, k1, ?_, C78_same hInt PPL.ideal_lawful two_ok h1 g1 c1 c2,
    C78_swap hInt PPL.ideal_lawful two_ok h1 k1 c1 c3, (C79_swap_counts hInt PPL.ideal_lawful two_ok h1 k1 c1 c3).2⟩
  rw [h2, g2]
  decide

/-- With lengths in a cubic field: for every complete decomposition, and there is one, the components are the same for the inverse. -/
example : ∃ D₁ D₂ steps₁ steps₂, DReach PPL.ideal (SLengths.ops cubicArith) connIET connState D₁ steps₁ ∧
    DReach PPL.ideal (SLengths.ops cubicArith) connIET.swap connState D₂ steps₂ ∧
    ((steps₁.filterMap DStep.connection).map swappedConn).Perm (steps₂.filterMap DStep.connection) ∧ D₁.comps.length = D₂.comps.length ∧
    steps₁.filterMap DStep.connection ≠ [] := by
  have ok := conn_ok
  obtain ⟨D, h0, -⟩ := Decomp.make_spec hCubic (ι := AddMonoidHom.id Cubic) (fun _ _ h => h) ok
  obtain ⟨D', g0, -⟩ := Decomp.make_spec hCubic (ι := AddMonoidHom.id Cubic) (fun _ _ h => h) ok.swap
  obtain ⟨D₁, h1, c1⟩ := C74_attainable hCubic PPL.ideal_lawful ok (.init h0)
  obtain ⟨D₂, g1, c2⟩ := C74_attainable hCubic PPL.ideal_lawful ok.swap (.init g0)
  obtain ⟨st₁, h2⟩ := h1.reach (.init h0)
  obtain ⟨st₂, g2⟩ := g1.reach (.init g0)
  refine ⟨D₁, D₂, st₁, st₂, h2, g2, C78_swap hCubic PPL.ideal_lawful ok h2 g2 c1 c2, (C79_swap_counts hCubic PPL.ideal_lawful ok h2 g2 c1 c2).1, ?_⟩
  obtain ⟨st, hst, e⟩ := (C78_complete hCubic PPL.ideal_lawful ok h2 c1 3 1).mp ⟨by decide, by decide,
    .single ⟨⟨0, by decide, by decide +kernel, by decide +kernel⟩, 0, by decide, by decide +kernel, by decide +kernel, by decide +kernel⟩⟩
  exact List.ne_nil_of_mem (List.mem_filterMap.mpr ⟨st, hst, e⟩)

end Examples

end Verif
