import Verif.Proofs.ExceptionsDecomp
import Verif.Props.Boundary
import Verif.Props.Complete

/-!
# C87: decompositions after exceptions
-/

namespace Verif

set_option linter.unusedSectionVars false

variable {σ T ε : Type} [CommRing T] [LinearOrder T] [IsStrictOrderedRing T] {O : LengthsOps σ T} {d : ℕ} {c : T →+ (Fin d → ℚ)}
  {f : List Label → σ → M (List (List ℚ))} {P : Type} [CommRing P] [LinearOrder P] [IsStrictOrderedRing P]

/-- **C87.** `decompositionStepX` and `decomposeX` are the functions of the model that also tell the state in which an exception leaves the decomposition. -/
theorem C87_model (O : LengthsOps σ T) (L : PPL) (D : Decomp σ T) :
    (∀ fuel limit i, Outcome.forget (D.decompositionStepX L O fuel limit i) = D.decompositionStep L O fuel limit i) ∧
    ∀ target limit fuel, Outcome.forget (D.decomposeX L O target limit fuel) = D.decompose L O target limit fuel :=
  ⟨fun fuel limit i => forget_decompositionStep L fuel limit i D, fun target limit fuel => forget_decompose L target limit fuel D⟩

theorem Decomp.decompositionStep_lt {L : PPL} {D D' : Decomp σ T} {fuel : ℕ} {limit : ℤ} {i : ℕ} {r : M DStep}
    (h : D.decompositionStepX L O fuel limit i = (r, D')) (hr : r ≠ .error .ub) : i < D.comps.length := by
  by_contra hi
  have hc : D.comp i = .error .ub := by
    unfold Decomp.comp
    rw [List.getElem?_eq_none (by omega)]
  unfold Decomp.decompositionStepX Decomp.decompositionStepBoundedX at h
  rw [hc] at h
  simp only [ite_self] at h
  cases h
  exact hr rfl

/-- What is known about a decomposition after exceptions: it looks like one with exact coefficients that satisfies the invariant. -/
structure Decomp.After (H : LawfulLengths O c ε) (A₀ : AIET T) (D D' : Decomp σ T) (steps : List DStep) : Prop where
  like : Decomp.Like H D D'
  inv : ∀ {P : Type} [CommRing P] [LinearOrder P] [IsStrictOrderedRing P] {ι : T →+ P}, StrictMono ι →
    D'.Inv H ι A₀ (reported steps) (fun _ => ∃ st ∈ steps, st.result = .withoutPeriodicTrajectoryAutoSimilar)
  labels : (D'.comps.flatMap (fun x => x.iet.top) ++ eliminated steps).Perm A₀.top

theorem DCatch.after {H : LawfulLengths O c ε} (hf : H.CoordinatesOrException f) (hc : ∀ x, c x = 0 → x = 0) {L : PPL} (hL : L.Lawful) {E : IET T} {s : σ}
    (hE : H.Ok E s) {D : Decomp σ T} {steps : List DStep} (h : DCatch L (O.rebase f) E s D steps) : ∃ D', D.After H (H.abs E s) D' steps := by
  induction h with
  | @init D h =>
    obtain ⟨D', h1, h2, h3⟩ := Decomp.Pair.make (f := f) hE
    obtain rfl : D = D' := Except.ok.inj (h.symm.trans h1)
    have hd : DReach L O E s D [] := .init h2
    exact ⟨D, h3.1, fun hι => hd.inv hL H hι hE, (C35_partition H hL hE hd).2.2⟩
  | @step D D₁ steps step fuel limit i h1 h2 ih =>
    obtain ⟨D', ha⟩ := ih
    have hid := ha.inv (ι := AddMonoidHom.id T) (fun _ _ h => h)
    have hi : i < D'.comps.length := by
      rw [← ha.like.comps.length_eq]
      exact Decomp.decompositionStep_lt h2 (by simp)
    rcases ha.like.stepX hf hc (fun _ _ h => h) hL hid hi fuel limit with ⟨st, E₁, E₁', g1, g2, g3⟩ | ⟨e, E₁, E₁', -, g2, -⟩ | ⟨-, ⟨g, -⟩ | ⟨g, -⟩⟩
    · rw [h2] at g1
      cases g1
      refine ⟨E₁', g3, fun {P} _ _ _ {ι} hι => ?_, ?_⟩
      · rw [reported_concat]
        refine ((ha.inv hι).call hL hι g2).imp ?_
        rintro _ (⟨st, a1, a2⟩ | ⟨a1, _⟩)
        · exact ⟨st, List.mem_append_left _ a1, a2⟩
        · exact ⟨step, by simp, a1⟩
      · have hi' := List.getElem?_eq_getElem hi
        rcases decompositionStep_spec (fun _ _ h => h) hL hid hi' fuel limit with ⟨st, D₂, k1, -, k2, -⟩ | ⟨-, k | ⟨k, -⟩⟩
        · rw [g2] at k1
          cases k1
          exact (k2.labels hi' steps).trans ha.labels
        · rw [g2] at k; cases k
        · rw [g2] at k; cases k
    · rw [h2] at g2; cases g2
    · rw [h2] at g; cases g
    · rw [h2] at g; cases g
  | @throw D D₁ steps e fuel limit i h1 h2 he ih =>
    obtain ⟨D', ha⟩ := ih
    have hid := ha.inv (ι := AddMonoidHom.id T) (fun _ _ h => h)
    have hi : i < D'.comps.length := by
      rw [← ha.like.comps.length_eq]
      exact Decomp.decompositionStep_lt h2 (by rintro ⟨⟩; exact he)
    rcases ha.like.stepX hf hc (fun _ _ h => h) hL hid hi fuel limit with ⟨st, E₁, E₁', g1, -⟩ | ⟨e, E₁, E₁', g1, g2, g3, g4⟩ | ⟨-, ⟨g, -⟩ | ⟨g, -⟩⟩
    · rw [h2] at g1; cases g1
    · rw [h2] at g2
      cases g2
      obtain ⟨y, F, k1, k2, k3, k4, k5⟩ := g4
      refine ⟨E₁', g3, fun {P} _ _ _ {ι} hι => k5 hι _ _ _ (ha.inv hι), ?_⟩
      obtain ⟨e1, e2⟩ := flatMap_set_perm (y := { y with iet := F }) k1 (fun x : Comp T => x.iet.top)
      rw [k2]
      exact ((e2.trans (((Steps.top_perm k3).append_right _).trans e1.symm)).append_right _).trans ha.labels
    · rw [h2] at g; cases g; exact he.elim
    · rw [h2] at g; cases g; exact he.elim

section like

variable {H : LawfulLengths O c ε} {D D' : Decomp σ T}

theorem Decomp.Like.map_eq {β : Type} (h : Decomp.Like H D D') {F : Comp T → β} (hF : ∀ Q x y, Comp.Looks Q x y → F x = F y) : D.comps.map F = D'.comps.map F := by
  have := h.comps
  revert this
  generalize D.comps = l
  generalize D'.comps = l'
  intro this
  induction this with
  | nil => rfl
  | cons h _ ih => rw [List.map_cons, List.map_cons, ih, hF _ _ _ h]

theorem Comp.Looks.abs (H : LawfulLengths O c ε) {Q : IET T → IET T → Prop} {x y : Comp T} (h : x.Looks Q y) (s : σ) : H.abs x.iet s = H.abs y.iet s := by
  simp only [LawfulLengths.abs, h.top, h.bottom]

theorem Decomp.Like.mem (h : Decomp.Like H D D') {x : Comp T} (hx : x ∈ D.comps) : ∃ y ∈ D'.comps, ∃ Q, Comp.Looks Q x y := by
  obtain ⟨i, hi, rfl⟩ := List.getElem_of_mem hx
  have hl := h.comps.length_eq
  exact ⟨D'.comps[i]'(hl ▸ hi), List.getElem_mem _, _, (List.forall₂_iff_get.1 h.comps).2 i hi (hl ▸ hi)⟩

theorem Decomp.Like.mem' (h : Decomp.Like H D D') {y : Comp T} (hy : y ∈ D'.comps) : ∃ x ∈ D.comps, ∃ Q, Comp.Looks Q x y := by
  obtain ⟨i, hi, rfl⟩ := List.getElem_of_mem hy
  have hl := h.comps.length_eq
  exact ⟨D.comps[i]'(hl ▸ hi), List.getElem_mem _, _, (List.forall₂_iff_get.1 h.comps).2 i (hl ▸ hi) hi⟩

theorem Decomp.Like.get (h : Decomp.Like H D D') {i : ℕ} {x : Comp T} (hx : D.comps[i]? = some x) :
    ∃ y, D'.comps[i]? = some y ∧ Comp.Looks (fun E F => Verif.Alike (LWC.lawful H) (Relation.TransGen RauzyStep) E F D'.lengths) x y := by
  obtain ⟨hi, rfl⟩ := List.getElem?_eq_some_iff.mp hx
  have hl := h.comps.length_eq
  exact ⟨D'.comps[i]'(hl ▸ hi), List.getElem?_eq_getElem _, (List.forall₂_iff_get.1 h.comps).2 i hi (hl ▸ hi)⟩

theorem Decomp.Like.pieces (h : Decomp.Like H D D') (ι : T →+ P) :
    D.comps.map (fun x => (H.abs x.iet D.lengths.inner).map ι) = D'.comps.map (fun x => (H.abs x.iet D'.lengths.inner).map ι) := by
  rw [h.lengths]
  exact h.map_eq (fun _ _ _ h => by rw [h.abs H])

end like

/-- **C87.** Whatever exceptions have been thrown by `decompositionStep` and caught, the components are valid IETs and not swapped.  Their labels are pairwise
different, and together with the labels that have been eliminated they are the labels of the original IET. -/
theorem C87_partition (H : LawfulLengths O c ε) (hf : H.CoordinatesOrException f) (hc : ∀ x, c x = 0 → x = 0) {L : PPL} (hL : L.Lawful) {E : IET T} {s : σ}
    (hE : H.Ok E s) {D : Decomp σ T} {steps : List DStep} (h : DCatch L (O.rebase f) E s D steps) :
    (∀ x ∈ D.comps, (H.abs x.iet D.lengths.inner).Valid ∧ x.iet.swapped = false) ∧
    D.comps.Pairwise (fun x y => ∀ a ∈ x.iet.top, a ∉ y.iet.top) ∧
    (D.comps.flatMap (fun x => x.iet.top) ++ eliminated steps).Perm E.top := by
  obtain ⟨D', ha⟩ := h.after hf hc hL hE
  have hinv := ha.inv (ι := AddMonoidHom.id T) (fun _ _ h => h)
  have htop := ha.like.map_eq (F := fun x => x.iet.top) (fun _ _ _ h => h.top)
  refine ⟨fun x hx => ?_, ?_, ?_⟩
  · obtain ⟨y, hy, Q, hxy⟩ := ha.like.mem hx
    rw [hxy.abs H, ha.like.lengths, hxy.swapped]
    exact ⟨(hinv.good y hy).ok.valid, hinv.swapped y hy⟩
  · have := hinv.disjoint
    have e : ∀ l : List (Comp T), l.Pairwise (fun x y => ∀ a ∈ x.iet.top, a ∉ y.iet.top) ↔ (l.map (fun x => x.iet.top)).Pairwise (fun x y => ∀ a ∈ x, a ∉ y) :=
      fun l => by rw [List.pairwise_map]
    rw [e, htop, ← e]
    exact this
  · rw [List.flatMap_def, htop, ← List.flatMap_def]
    exact ha.labels

/-- **C87.** After any exceptions the components still describe the original IET as in C36. -/
theorem C87_covers (H : LawfulLengths O c ε) (hf : H.CoordinatesOrException f) (hc : ∀ x, c x = 0 → x = 0) {L : PPL} (hL : L.Lawful) {E : IET T} {s : σ}
    (hE : H.Ok E s) {D : Decomp σ T} {steps : List DStep} (h : DCatch L (O.rebase f) E s D steps) {ι : T →+ P} (hι : StrictMono ι) :
    ∃ os : List P, os.length = D.comps.length ∧
      Covers ((H.abs E s).map ι) (os.zip (D.comps.map (fun x => (H.abs x.iet D.lengths.inner).map ι))) := by
  obtain ⟨D', ha⟩ := h.after hf hc hL hE
  rw [ha.like.pieces, ha.like.comps.length_eq]
  exact (ha.inv hι).covers

/-- **C87.** After any exceptions, the original IET has a periodic point iff one of the components has one. -/
theorem C87_periodic (H : LawfulLengths O c ε) (hf : H.CoordinatesOrException f) (hc : ∀ x, c x = 0 → x = 0) {L : PPL} (hL : L.Lawful) {E : IET T} {s : σ}
    (hE : H.Ok E s) {D : Decomp σ T} {steps : List DStep} (h : DCatch L (O.rebase f) E s D steps) {ι : T →+ P} (hι : StrictMono ι) :
    (∃ x, Periodic ((H.abs E s).map ι).Maps x) ↔ ∃ y ∈ D.comps, ∃ x, Periodic ((H.abs y.iet D.lengths.inner).map ι).Maps x := by
  obtain ⟨D', ha⟩ := h.after hf hc hL hE
  rw [(ha.inv hι).periodic, ha.like.lengths]
  constructor
  · rintro ⟨y, hy, hx⟩
    obtain ⟨x, hx', Q, hxy⟩ := ha.like.mem' hy
    exact ⟨x, hx', by rw [hxy.abs H]; exact hx⟩
  · rintro ⟨x, hx', hx⟩
    obtain ⟨y, hy, Q, hxy⟩ := ha.like.mem hx'
    exact ⟨y, hy, by rw [← hxy.abs H]; exact hx⟩

/-- **C87.** After any exceptions, what `cylinder()` says about a component is true as in C37. -/
theorem C87_cylinder (H : LawfulLengths O c ε) (hf : H.CoordinatesOrException f) (hc : ∀ x, c x = 0 → x = 0) {L : PPL} (hL : L.Lawful) {E : IET T} {s : σ}
    (hE : H.Ok E s) {D : Decomp σ T} {steps : List DStep} (h : DCatch L (O.rebase f) E s D steps) {ι : T →+ P} (hι : StrictMono ι) :
    ∃ os : List P, os.length = D.comps.length ∧
      Covers ((H.abs E s).map ι) (os.zip (D.comps.map (fun x => (H.abs x.iet D.lengths.inner).map ι))) ∧
      ∀ (i : ℕ) (o : P) (x : Comp T), os[i]? = some o → D.comps[i]? = some x → x.cylinder = some true →
        x.iet.top.length = 1 ∧ ∃ n, 0 < n ∧ ∀ y, Inside (o, (H.abs x.iet D.lengths.inner).map ι) y →
          Iter ((H.abs E s).map ι).Maps n y y ∧ ∀ m, 0 < m → m < n → ¬ Iter ((H.abs E s).map ι).Maps m y y := by
  obtain ⟨D', ha⟩ := h.after hf hc hL hE
  obtain ⟨os, h1, h2, h3⟩ := (ha.inv hι).cylinder
  rw [ha.like.pieces, ha.like.comps.length_eq]
  refine ⟨os, h1, h2, fun i o x ho hx hcyl => ?_⟩
  obtain ⟨y, hy, hxy⟩ := ha.like.get hx
  rw [ha.like.lengths, hxy.abs H, hxy.top]
  exact h3 i o y ho hy (hxy.cylinder ▸ hcyl)

/-- **C87.** After any exceptions, a component for which `withoutPeriodicTrajectory()` is true has no periodic points, unless the similarity tracker has
been relied upon (see C23, C37). -/
theorem C87_withoutPeriodicTrajectory (H : LawfulLengths O c ε) (hf : H.CoordinatesOrException f) (hc : ∀ x, c x = 0 → x = 0) {L : PPL} (hL : L.Lawful)
    {E : IET T} {s : σ} (hE : H.Ok E s) {D : Decomp σ T} {steps : List DStep} (h : DCatch L (O.rebase f) E s D steps)
    (hauto : ∀ st ∈ steps, st.result ≠ .withoutPeriodicTrajectoryAutoSimilar) {x : Comp T} (hx : x ∈ D.comps)
    (hw : x.withoutPeriodicTrajectory = some true) {ι : T →+ P} (hι : StrictMono ι) :
    ¬ ∃ y, Periodic ((H.abs x.iet D.lengths.inner).map ι).Maps y := by
  obtain ⟨D', ha⟩ := h.after hf hc hL hE
  obtain ⟨y, hy, Q, hxy⟩ := ha.like.mem hx
  rw [ha.like.lengths, hxy.abs H]
  exact (ha.inv hι).no_periodic hι (by rintro _ ⟨st, h1, h2⟩; exact hauto st h1 h2) hy (hxy.withoutPeriodicTrajectory ▸ hw)

/-- **C87.** After any exceptions the functions about a component do not contradict each other. -/
theorem C87_exclusive (H : LawfulLengths O c ε) (hf : H.CoordinatesOrException f) (hc : ∀ x, c x = 0 → x = 0) {L : PPL} (hL : L.Lawful)
    {E : IET T} {s : σ} (hE : H.Ok E s) {D : Decomp σ T} {steps : List DStep} (h : DCatch L (O.rebase f) E s D steps) {x : Comp T} (hx : x ∈ D.comps) :
    (x.cylinder = some false ↔ x.withoutPeriodicTrajectory = some true) ∧
    (x.withoutPeriodicTrajectory = some false ↔ x.cylinder = some true) ∧ x.keane ≠ some true := by
  obtain ⟨D', ha⟩ := h.after hf hc hL hE
  obtain ⟨y, hy, Q, hxy⟩ := ha.like.mem hx
  have := (ha.inv (ι := AddMonoidHom.id T) (fun _ _ h => h)).flags y hy
  rw [hxy.cylinder, hxy.withoutPeriodicTrajectory, hxy.keane]
  exact ⟨this.not_cylinder, this.not_periodic, this.keane⟩

/-- **C87.** After any exceptions, every connection that has been reported is a saddle connection of the original IET as in C40. -/
theorem C87_connections (H : LawfulLengths O c ε) (hf : H.CoordinatesOrException f) (hc : ∀ x, c x = 0 → x = 0) {L : PPL} (hL : L.Lawful) {E : IET T} {s : σ}
    (hE : H.Ok E s) {D : Decomp σ T} {steps : List DStep} (h : DCatch L (O.rebase f) E s D steps) {conn : Conn} (hconn : conn ∈ reported steps)
    {ι : T →+ P} (hι : StrictMono ι) :
    ∃ a ∈ E.bottom.dropLast, ∃ b ∈ E.top.dropLast, conn = ⟨⟨a, true⟩, ⟨b, false⟩⟩ ∧
      ∃ n, Iter ((H.abs E s).map ι).Maps n (((H.abs E s).map ι).rightBottom a) (((H.abs E s).map ι).rightTop b) := by
  obtain ⟨D', ha⟩ := h.after hf hc hL hE
  exact (ha.inv hι).connections hconn

/-- **C87.** After any exceptions, the connections recorded at the half edges of the components are the connections that have been returned by
`decompositionStep`, each of them in both directions.  In particular no connection is recorded by a call that throws. -/
theorem C87_recorded (H : LawfulLengths O c ε) (hf : H.CoordinatesOrException f) (hc : ∀ x, c x = 0 → x = 0) {L : PPL} (hL : L.Lawful) {E : IET T} {s : σ}
    (hE : H.Ok E s) {D : Decomp σ T} {steps : List DStep} (h : DCatch L (O.rebase f) E s D steps) :
    (∃ cs, D.halfEdges.mapM (fun h => do return (← D.heLeft h) ++ (← D.heRight h)) = .ok cs ∧
      cs.flatten.Perm (reported steps ++ (reported steps).map Conn.neg)) ∧
    (reported steps ++ (reported steps).map Conn.neg).Nodup := by
  obtain ⟨D', ha⟩ := h.after hf hc hL hE
  obtain ⟨h1, h2, h3⟩ := (ha.inv (ι := AddMonoidHom.id T) (fun _ _ h => h)).around hE.valid ha.labels
  have e : D.halfEdges = D'.halfEdges := by
    unfold Decomp.halfEdges
    have : D.comps.map (fun x => (x.topContour, x.bottomContour)) = D'.comps.map (fun x => (x.topContour, x.bottomContour)) :=
      ha.like.map_eq (fun _ _ _ h => by rw [h.topContour, h.bottomContour])
    have e : ∀ l : List (Comp T), l.zipIdx.flatMap (fun q => q.1.topContour.map (fun l => (⟨q.2, l, true⟩ : HalfEdge)) ++ q.1.bottomContour.map (fun l => ⟨q.2, l, false⟩)) =
        (l.map (fun x => (x.topContour, x.bottomContour))).zipIdx.flatMap (fun q => q.1.1.map (fun l => (⟨q.2, l, true⟩ : HalfEdge)) ++ q.1.2.map (fun l => ⟨q.2, l, false⟩)) := by
      intro l
      rw [List.zipIdx_map, List.flatMap_map]
      rfl
    rw [e, e, this]
  rw [← e, ← ha.like.lengths] at h1 h2
  exact ⟨⟨_, mapM_around h1, by rw [← List.flatMap_def]; exact h2⟩, h3⟩

/-- **C87.** After any exceptions the internal consistency check succeeds. -/
theorem C87_check (H : LawfulLengths O c ε) (hf : H.CoordinatesOrException f) (hc : ∀ x, c x = 0 → x = 0) {L : PPL} (hL : L.Lawful) {E : IET T} {s : σ}
    (hE : H.Ok E s) {D : Decomp σ T} {steps : List DStep} (h : DCatch L (O.rebase f) E s D steps) : D.check = .ok () := by
  obtain ⟨D', ha⟩ := h.after hf hc hL hE
  have := (ha.inv (ι := AddMonoidHom.id T) (fun _ _ h => h)).check hE.valid
  unfold Decomp.check at this ⊢
  rw [ha.like.lengths]
  exact this

/-- **C87.** After any exceptions a call to `decompositionStep` returns, or throws an exception that `coefficients()` has thrown, or it has no limit and
does not return or overflows its limit (see C76).  In particular there are no failed assertions. -/
theorem C87_progress (H : LawfulLengths O c ε) (hf : H.CoordinatesOrException f) (hc : ∀ x, c x = 0 → x = 0) {L : PPL} (hL : L.Lawful) {E : IET T} {s : σ}
    (hE : H.Ok E s) {D : Decomp σ T} {steps : List DStep} (h : DCatch L (O.rebase f) E s D steps) {i : ℕ} {x : Comp T} (hi : D.comps[i]? = some x)
    (fuel : ℕ) (limit : ℤ) :
    (∃ step, (D.decompositionStepX L (O.rebase f) fuel limit i).1 = .ok step) ∨
    (∃ e, (D.decompositionStepX L (O.rebase f) fuel limit i).1 = .error e ∧ Throws f e ∧ e.Exception) ∨
    limit = -1 ∧ ((D.decompositionStepX L (O.rebase f) fuel limit i).1 = .error .fuel ∨
      (D.decompositionStepX L (O.rebase f) fuel limit i).1 = .error .ub ∧ ∀ v ∈ safList c (H.abs x.iet D.lengths.inner), v = 0) := by
  obtain ⟨D', ha⟩ := h.after hf hc hL hE
  have hid := ha.inv (ι := AddMonoidHom.id T) (fun _ _ h => h)
  obtain ⟨y, hy, hxy⟩ := ha.like.get hi
  rcases ha.like.stepX hf hc (fun _ _ h => h) hL hid (List.getElem?_eq_some_iff.mp hy).1 fuel limit with ⟨st, E₁, E₁', g1, -⟩ | ⟨e, E₁, E₁', g1, g2, -⟩ | ⟨g, ⟨g1, -⟩ | ⟨g1, g2⟩⟩
  · exact .inl ⟨st, by rw [g1]⟩
  · exact .inr (.inl ⟨e, by rw [g2], g1, hf.1 e g1⟩)
  · exact .inr (.inr ⟨g, .inl g1⟩)
  · refine .inr (.inr ⟨g, .inr ⟨g1, ?_⟩⟩)
    rcases decompositionStep_spec (fun _ _ h => h) hL hid hy fuel limit with ⟨st, D₂, k, -⟩ | ⟨-, k | ⟨-, k⟩⟩
    · rw [g2] at k; cases k
    · rw [g2] at k; cases k
    · rw [hxy.abs H, ha.like.lengths]
      exact k

/-- **C87.** A call to `decompositionStep` that returns after any exceptions does what is said in C35. -/
theorem C87_step (H : LawfulLengths O c ε) (hf : H.CoordinatesOrException f) (hc : ∀ x, c x = 0 → x = 0) {L : PPL} (hL : L.Lawful) {E : IET T} {s : σ}
    (hE : H.Ok E s) {D D₁ : Decomp σ T} {steps : List DStep} (h : DCatch L (O.rebase f) E s D steps) {fuel : ℕ} {limit : ℤ} {i : ℕ} {step : DStep}
    (hr : D.decompositionStepX L (O.rebase f) fuel limit i = (.ok step, D₁)) :
    D₁.comps.length = D.comps.length + (if step.result = .separatingConnection then 1 else 0) ∧
    (∀ j y, j ≠ i → D.comps[j]? = some y → ∃ y', D₁.comps[j]? = some y' ∧ y.SameVisible y' ∧
      ∀ a ∈ y.iet.top, O.get a D₁.lengths.inner = O.get a D.lengths.inner) ∧
    ∃ x x', D.comps[i]? = some x ∧ D₁.comps[i]? = some x' ∧
      (step.result = .separatingConnection → ∃ y, D₁.comps[D.comps.length]? = some y ∧ step.additional = some D.comps.length ∧
        (x'.iet.top ++ y.iet.top).Perm x.iet.top) ∧
      (step.result = .nonSeparatingConnection → ∃ conn, step.connection = some conn ∧ (conn.target.label :: x'.iet.top).Perm x.iet.top) ∧
      (step.result ≠ .separatingConnection → step.result ≠ .nonSeparatingConnection → step.connection = none ∧ x'.iet.top.Perm x.iet.top) := by
  obtain ⟨D', ha⟩ := h.after hf hc hL hE
  have hid := ha.inv (ι := AddMonoidHom.id T) (fun _ _ h => h)
  have hi : i < D'.comps.length := by
    rw [← ha.like.comps.length_eq]
    exact Decomp.decompositionStep_lt hr (by simp)
  have hi' := List.getElem?_eq_getElem hi
  rcases ha.like.stepX hf hc (fun _ _ h => h) hL hid hi fuel limit with ⟨st, E₁, D₁', g1, g2, g3⟩ | ⟨e, E₁, E₁', -, g2, -⟩ | ⟨-, ⟨g, -⟩ | ⟨g, -⟩⟩
  · rw [hr] at g1
    cases g1
    rcases decompositionStep_spec (fun _ _ h => h) hL hid hi' fuel limit with ⟨st, D₂, k1, k2, k3, -, k4, -⟩ | ⟨-, k | ⟨k, -⟩⟩
    · rw [g2] at k1
      cases k1
      obtain ⟨m1, x, x', m2, m3, m4, m5, m6⟩ := k3.described hid k2 hi' k4
      have back : ∀ {D D' : Decomp σ T}, Decomp.Like H D D' → ∀ {j : ℕ} {y : Comp T}, D'.comps[j]? = some y → ∃ x Q, D.comps[j]? = some x ∧ Comp.Looks Q x y := by
        intro D D' h j y hy
        obtain ⟨hj, rfl⟩ := List.getElem?_eq_some_iff.mp hy
        have hl := h.comps.length_eq
        exact ⟨D.comps[j]'(hl ▸ hj), _, List.getElem?_eq_getElem _, (List.forall₂_iff_get.1 h.comps).2 j (hl ▸ hj) hj⟩
      obtain ⟨u, Q, u1, u2⟩ := back ha.like m2
      obtain ⟨u', Q', u1', u2'⟩ := back g3 m3
      refine ⟨?_, ?_, u, u', u1, u1', ?_, ?_, ?_⟩
      · rw [g3.comps.length_eq, ha.like.comps.length_eq]
        split
        · rename_i hs
          obtain ⟨_, e, _⟩ := m4 hs
          exact e
        · rename_i hs
          by_cases hn : step.result = .nonSeparatingConnection
          · obtain ⟨_, e, _⟩ := m5 hn
            exact e
          · exact (m6 hs hn).1
      · intro j y hj hy
        obtain ⟨z, hz, hyz⟩ := ha.like.get hy
        obtain ⟨n1, n2⟩ := m1 j z hj hz
        obtain ⟨y', Q'', hy', hyz'⟩ := back g3 n1
        refine ⟨y', hy', ⟨?_, ?_, ?_, ?_, ?_, ?_⟩, fun a ha' => ?_⟩
        · rw [hyz.top, hyz'.top]
        · rw [hyz.bottom, hyz'.bottom]
        · rw [hyz.swapped, hyz'.swapped]
        · rw [hyz.cylinder, hyz'.cylinder]
        · rw [hyz.withoutPeriodicTrajectory, hyz'.withoutPeriodicTrajectory]
        · rw [hyz.keane, hyz'.keane]
        · rw [g3.lengths, ha.like.lengths]
          exact n2 a (hyz.top ▸ ha')
      · intro hs
        obtain ⟨y, -, e2, e3, e4, -⟩ := m4 hs
        obtain ⟨v, Q'', v1, v2⟩ := back g3 e2
        rw [ha.like.comps.length_eq]
        exact ⟨v, v1, e3, by rw [u2'.top, v2.top, u2.top]; exact e4⟩
      · intro hs
        obtain ⟨conn, -, -, e3, e4, -⟩ := m5 hs
        exact ⟨conn, e3, by rw [u2'.top, u2.top]; exact e4⟩
      · intro hs hn
        obtain ⟨-, -, e3, e4⟩ := m6 hs hn
        exact ⟨e3, by rw [u2'.top, u2.top]; exact e4⟩
    · rw [g2] at k; cases k
    · rw [g2] at k; cases k
  · rw [hr] at g2; cases g2
  · rw [hr] at g; cases g
  · rw [hr] at g; cases g

/-- **C87.** When `decompositionStep` throws, then no component has been created or changed except that some steps of Rauzy induction may have been
performed on component `i`.  What `cylinder()` and the other functions tell about that component has not changed. -/
theorem C87_throw (H : LawfulLengths O c ε) (hf : H.CoordinatesOrException f) (hc : ∀ x, c x = 0 → x = 0) {L : PPL} (hL : L.Lawful) {E : IET T} {s : σ}
    (hE : H.Ok E s) {D D₁ : Decomp σ T} {steps : List DStep} (h : DCatch L (O.rebase f) E s D steps) {fuel : ℕ} {limit : ℤ} {i : ℕ} {e : Err}
    (hr : D.decompositionStepX L (O.rebase f) fuel limit i = (.error e, D₁)) (he : e.Exception) :
    Throws f e ∧ D₁.comps.length = D.comps.length ∧
    (∀ j y, j ≠ i → D.comps[j]? = some y → ∃ y', D₁.comps[j]? = some y' ∧ y.SameVisible y' ∧
      ∀ a ∈ y.iet.top, O.get a D₁.lengths.inner = O.get a D.lengths.inner) ∧
    ∃ x x', D.comps[i]? = some x ∧ D₁.comps[i]? = some x' ∧
      Relation.ReflTransGen RauzyStep (H.abs x.iet D.lengths.inner) (H.abs x'.iet D₁.lengths.inner) ∧
      x'.cylinder = x.cylinder ∧ x'.withoutPeriodicTrajectory = x.withoutPeriodicTrajectory ∧ x'.keane = x.keane := by
  obtain ⟨D', ha⟩ := h.after hf hc hL hE
  have hid := ha.inv (ι := AddMonoidHom.id T) (fun _ _ h => h)
  have hi : i < D'.comps.length := by
    rw [← ha.like.comps.length_eq]
    exact Decomp.decompositionStep_lt hr (by rintro ⟨⟩; exact he)
  rcases ha.like.stepX hf hc (fun _ _ h => h) hL hid hi fuel limit with ⟨st, E₁, E₁', g1, -⟩ | ⟨e', E₁, D₁', g1, g2, g3, g4⟩ | ⟨-, ⟨g, -⟩ | ⟨g, -⟩⟩
  · rw [hr] at g1; cases g1
  · rw [hr] at g2
    cases g2
    obtain ⟨y, F, k1, k2, k3, k4, k5⟩ := g4
    have back : ∀ {D D' : Decomp σ T}, Decomp.Like H D D' → ∀ {j : ℕ} {y : Comp T}, D'.comps[j]? = some y → ∃ x Q, D.comps[j]? = some x ∧ Comp.Looks Q x y := by
      intro D D' h j y hy
      obtain ⟨hj, rfl⟩ := List.getElem?_eq_some_iff.mp hy
      have hl := h.comps.length_eq
      exact ⟨D.comps[j]'(hl ▸ hj), _, List.getElem?_eq_getElem _, (List.forall₂_iff_get.1 h.comps).2 j (hl ▸ hj) hj⟩
    obtain ⟨u, Q, u1, u2⟩ := back ha.like k1
    obtain ⟨u', Q', u1', u2'⟩ := back g3 (j := i) (y := { y with iet := F }) (by rw [k2, List.getElem?_set_self hi])
    refine ⟨g1, ?_, ?_, u, u', u1, u1', ?_, ?_, ?_, ?_⟩
    · rw [g3.comps.length_eq, ha.like.comps.length_eq, k2, List.length_set]
    · intro j z hj hz
      obtain ⟨w, hw, hzw⟩ := ha.like.get hz
      obtain ⟨y', Q'', hy', hyz'⟩ := back g3 (j := j) (y := w) (by rw [k2, List.getElem?_set_ne (Ne.symm hj)]; exact hw)
      refine ⟨y', hy', ⟨?_, ?_, ?_, ?_, ?_, ?_⟩, fun a ha' => ?_⟩
      · rw [hzw.top, hyz'.top]
      · rw [hzw.bottom, hyz'.bottom]
      · rw [hzw.swapped, hyz'.swapped]
      · rw [hzw.cylinder, hyz'.cylinder]
      · rw [hzw.withoutPeriodicTrajectory, hyz'.withoutPeriodicTrajectory]
      · rw [hzw.keane, hyz'.keane]
      · have hinv₁ := k5 (ι := AddMonoidHom.id T) (fun _ _ h => h) _ _ _ hid
        have hg := (hid.good w (List.mem_of_getElem? hw)).ok
        have hw₁ : D₁'.comps[j]? = some w := by rw [k2, List.getElem?_set_ne (Ne.symm hj)]; exact hw
        have hg' := (hinv₁.good w (List.mem_of_getElem? hw₁)).ok
        rw [hzw.top] at ha'
        rw [g3.lengths, ha.like.lengths, H.get_spec _ _ hg.inv.1 (hg.dom a ha').1, H.get_spec _ _ hg'.inv.1 (hg'.dom a ha').1]
        rw [k4 a (pairwise_getElem_ne (fun _ _ h a ha hb => h a hb ha) hid.disjoint hw k1 hj a ha')]
    · rw [u2.abs H, u2'.abs H, g3.lengths, ha.like.lengths]
      exact k3
    · rw [u2'.cylinder, u2.cylinder]
    · rw [u2'.withoutPeriodicTrajectory, u2.withoutPeriodicTrajectory]
    · rw [u2'.keane, u2.keane]
  · rw [hr] at g; cases g; exact he.elim
  · rw [hr] at g; cases g; exact he.elim

/-! ### decompose -/

/-- All errors are exceptions. -/
def Caught {α : Type} (r : M α) : Prop := ∀ e, r = .error e → e.Exception

theorem next_cases {S α β : Type} {x : Outcome S α} {k : α → S → Outcome S β} {r : M β} {t : S} (h : x.next k = (r, t)) :
    (∃ e, x = (.error e, t) ∧ r = .error e) ∨ ∃ a t', x = (.ok a, t') ∧ k a t' = (r, t) := by
  obtain ⟨x | x, y⟩ := x
  · simp only [Outcome.next] at h
    cases h
    exact .inl ⟨x, rfl, rfl⟩
  · exact .inr ⟨x, y, rfl, h⟩

theorem DCatch.component {L : PPL} {E : IET T} {s : σ} {target : Comp T → Bool} {limit : ℤ} : ∀ (n i : ℕ) {D D' : Decomp σ T} {steps : List DStep} {r : M Bool},
    DCatch L O E s D steps → D.decomposeComponentX L O target limit n i = (r, D') → Caught r → ∃ more, DCatch L O E s D' (steps ++ more)
  | 0, i, D, D', steps, r, h, hr, hc => by
    cases hr
    exact (hc _ rfl).elim
  | n + 1, i, D, D', steps, r, h, hr, hc => by
    unfold Decomp.decomposeComponentX at hr
    cases hx : D.comp i with
    | error e =>
      rw [hx] at hr
      cases hr
      have := hc _ rfl
      unfold Decomp.comp at hx
      split at hx <;> cases hx
      exact this.elim
    | ok x =>
      rw [hx] at hr
      simp only at hr
      split at hr
      · cases hr; exact ⟨[], by simpa using h⟩
      · rcases next_cases hr with ⟨e, h1, rfl⟩ | ⟨st, D₁, h1, hr⟩
        · exact ⟨[], by simpa using h.throw n limit i h1 (hc e rfl)⟩
        · have h' := h.step n limit i h1
          split at hr
          · cases hr; exact ⟨[st], h'⟩
          · cases hadd : st.additional with
            | none =>
              rw [hadd] at hr
              obtain ⟨more, hm⟩ := DCatch.component n i h' hr hc
              exact ⟨st :: more, by simpa using hm⟩
            | some j =>
              rw [hadd] at hr
              simp only at hr
              rcases next_cases hr with ⟨e, h2, rfl⟩ | ⟨b, D₂, h2, hr⟩
              · obtain ⟨more, hm⟩ := DCatch.component n j h' h2 (fun e' he => by cases he; exact hc e rfl)
                exact ⟨st :: more, by simpa using hm⟩
              · obtain ⟨more, hm⟩ := DCatch.component n j h' h2 (fun e' he => by cases he)
                rcases next_cases hr with ⟨e, h3, rfl⟩ | ⟨b', D₃, h3, hr⟩
                · obtain ⟨more', hm'⟩ := DCatch.component n i hm h3 (fun e' he => by cases he; exact hc e rfl)
                  exact ⟨st :: (more ++ more'), by simpa using hm'⟩
                · obtain ⟨more', hm'⟩ := DCatch.component n i hm h3 (fun e' he => by cases he)
                  cases hr
                  exact ⟨st :: (more ++ more'), by simpa using hm'⟩

/-- **C87.** When `decompose` returns or throws an exception, then the decomposition is in one of the states considered in the other theorems: `decompose`
has called `decompositionStep` some times, and possibly the last one of these calls has thrown. -/
theorem C87_decompose {L : PPL} {E : IET T} {s : σ} {D D' : Decomp σ T} {steps : List DStep} (h : DCatch L O E s D steps) {target : Comp T → Bool} {limit : ℤ}
    {fuel : ℕ} {r : M Bool} (hr : D.decomposeX L O target limit fuel = (r, D')) (hc : ∀ e, r = .error e → e.Exception) :
    ∃ more, DCatch L O E s D' (steps ++ more) := by
  unfold Decomp.decomposeX at hr
  revert hr
  generalize List.range D.comps.length = is
  intro hr
  induction is generalizing D steps with
  | nil => cases hr; exact ⟨[], by simpa using h⟩
  | cons i is ih =>
    unfold Decomp.decomposeAllX at hr
    rcases next_cases hr with ⟨e, h1, rfl⟩ | ⟨b, D₁, h1, hr⟩
    · exact DCatch.component fuel i h h1 (fun e' he => by cases he; exact hc e rfl)
    · obtain ⟨more, hm⟩ := DCatch.component fuel i h h1 (fun e' he => by cases he)
      split at hr
      · obtain ⟨more', hm'⟩ := ih hm hr
        exact ⟨more ++ more', by simpa using hm'⟩
      · cases hr; exact ⟨more, hm⟩

/-! ### An example -/

namespace Examples

/-- Three intervals of lengths √2, 2, 1 whose order is reversed, and two intervals of lengths 1, 2 next to them. -/
def pickyPair : IET Q2 := .fresh [0, 1, 2, 3, 4] [2, 1, 0, 4, 3]
/-- Their lengths. -/
def pickyPairState : SLengths Q2 := ⟨[], [⟨0, 1⟩, 2, 1, 1, 2]⟩

theorem pickyPair_ok : hQ2.Ok pickyPair pickyPairState := sample_ok _ _ _ _ (by decide)

/-- The lengths, with coefficients that cannot always be computed. -/
def pickyOps : LengthsOps (SLengths Q2) Q2 := (SLengths.ops q2Arith).rebase pickyCoefficients

/-- The decomposition after the calls `decompositionStep(limit)` of components in `calls`, and what they returned or threw; exceptions are caught. -/
def pickyCalls (L : PPL) : List (ℕ × ℤ) → Decomp (SLengths Q2) Q2 → List (M DStep) × Decomp (SLengths Q2) Q2
  | [], D => ([], D)
  | p :: calls, D =>
    let x := D.decompositionStepX L pickyOps 0 p.2 p.1
    let y := pickyCalls L calls x.2
    (x.1 :: y.1, y.2)

/-- The first call finds out that the IET is reducible.  Then a call throws for the first component, which has changed by then.  Then the second
component is decomposed. -/
def pickyCall : List (ℕ × ℤ) := [(0, 1), (0, 1), (1, 1), (1, 1)]

theorem picky_results : (Decomp.make pickyOps pickyPair pickyPairState).map (fun D => (pickyCalls PPL.ideal pickyCall D).1.map (Except.map DStep.result)) =
      .ok [.ok .separatingConnection, .error .logicError, .ok .nonSeparatingConnection, .ok .cylinder] := by
  decide +kernel

theorem picky_components : (Decomp.make pickyOps pickyPair pickyPairState).map (fun D =>
      [1, 2, 3, 4].map (fun n => (pickyCalls PPL.ideal (pickyCall.take n) D).2.comps.map (fun x => x.iet.top))) =
      .ok [[[0, 1, 2], [3, 4]], [[1, 0, 2], [3, 4]], [[1, 0, 2], [4]], [[1, 0, 2], [4]]] := by
  decide +kernel

theorem pickyCalls_reach (L : PPL) : ∀ (calls : List (ℕ × ℤ)) {D : Decomp (SLengths Q2) Q2} {steps : List DStep}, DCatch L pickyOps pickyPair pickyPairState D steps →
    (∀ r ∈ (pickyCalls L calls D).1, Caught r) →
    DCatch L pickyOps pickyPair pickyPairState (pickyCalls L calls D).2 (steps ++ (pickyCalls L calls D).1.filterMap Except.toOption)
  | [], D, steps, h, _ => by simpa [pickyCalls] using h
  | p :: calls, D, steps, h, hc => by
    unfold pickyCalls at hc ⊢
    rcases hx : D.decompositionStepX L pickyOps 0 p.2 p.1 with ⟨e | st, D'⟩
    · simp only [hx] at hc ⊢
      have := pickyCalls_reach L calls (h.throw 0 p.2 p.1 hx (hc _ List.mem_cons_self e rfl)) (fun r hr => hc r (List.mem_cons_of_mem _ hr))
      rwa [List.filterMap_cons_none rfl]
    · simp only [hx] at hc ⊢
      have := pickyCalls_reach L calls (h.step 0 p.2 p.1 hx) (fun r hr => hc r (List.mem_cons_of_mem _ hr))
      simpa [Except.toOption] using this

/-- The state after these calls, in which an exception has been caught. -/
theorem picky_decomposition : ∃ D steps, DCatch PPL.ideal pickyOps pickyPair pickyPairState D steps ∧
    D.comps.map (fun x => x.iet.top) = [[1, 0, 2], [4]] ∧ steps.map DStep.result = [.separatingConnection, .nonSeparatingConnection, .cylinder] := by
  have h1 := picky_results
  have h2 := picky_components
  cases hD : Decomp.make pickyOps pickyPair pickyPairState with
  | error e => rw [hD] at h1; cases h1
  | ok D =>
    rw [hD] at h1 h2
    simp only [Except.map, Except.ok.injEq] at h1 h2
    have hres : ∀ r ∈ (pickyCalls PPL.ideal pickyCall D).1, Caught r := by
      intro r hr e he
      subst he
      have := List.mem_map_of_mem (f := Except.map DStep.result) hr
      change List.map (Except.map DStep.result) _ = _ at h1
      rw [h1] at this
      simp [Except.map] at this
      subst this
      trivial
    refine ⟨_, _, pickyCalls_reach PPL.ideal pickyCall (.init hD) hres, ?_, ?_⟩
    · simp only [List.map_cons, List.cons.injEq] at h2
      exact h2.2.2.2.1
    · have : ∀ l : List (M DStep), (l.filterMap Except.toOption).map DStep.result = (l.map (Except.map DStep.result)).filterMap Except.toOption := by
        intro l
        induction l with
        | nil => rfl
        | cons x l ih => 
          cases x with
          | error e => rw [List.map_cons, List.filterMap_cons_none rfl, List.filterMap_cons_none rfl, ih]
          | ok x => 
            rw [List.map_cons, List.filterMap_cons_some (f := Except.toOption) (a := Except.ok x) (b := x) rfl,
              List.filterMap_cons_some (f := Except.toOption) (b := x.result) rfl, List.map_cons, ih]
      rw [List.nil_append, this]
      change List.map (Except.map DStep.result) _ = _ at h1
      rw [h1]
      rfl

/-- After this exception the second component is a cylinder, and every orbit of the original IET meets exactly one of the two components. -/
example : ∃ pieces : List (Q2 × AIET Q2), pieces.length = 2 ∧
    Covers ((hQ2.abs pickyPair pickyPairState).map (AddMonoidHom.id Q2)) pieces := by
  obtain ⟨D, steps, h1, h2, -⟩ := picky_decomposition
  obtain ⟨os, h4, h5⟩ := C87_covers hQ2 picky_coordinates q2Coef_injective PPL.ideal_lawful pickyPair_ok h1 (ι := AddMonoidHom.id Q2) (fun _ _ h => h)
  have := congrArg List.length h2
  refine ⟨_, ?_, h5⟩
  simp at this ⊢
  omega

/-- The labels of the components and the one which has been eliminated. -/
example : ∃ a, ([1, 0, 2, 4] ++ [a]).Perm pickyPair.top := by
  obtain ⟨D, steps, h1, h2, h3⟩ := picky_decomposition
  obtain ⟨-, -, h⟩ := C87_partition hQ2 picky_coordinates q2Coef_injective PPL.ideal_lawful pickyPair_ok h1
  rw [List.flatMap_def, h2] at h
  have : (eliminated steps).length = 1 := by
    have := h.length_eq
    simp [pickyPair, IET.fresh] at this ⊢
    omega
  obtain ⟨a, ha⟩ := List.length_eq_one_iff.mp this
  rw [ha] at h
  exact ⟨a, h⟩

end Examples

open Examples in
/-- **C87.** `decompositionStep` can throw after it has changed the component: here the second call has performed one round of Zorich induction on the first
component. -/
theorem C87_changed : ∃ D D' D'' step,
    Decomp.make pickyOps pickyPair pickyPairState = .ok D ∧ D.decompositionStepX PPL.ideal pickyOps 0 1 0 = (.ok step, D') ∧
    D'.decompositionStepX PPL.ideal pickyOps 0 1 0 = (.error .logicError, D'') ∧
    D'.comps.map (fun x => x.iet.top) = [[0, 1, 2], [3, 4]] ∧ D''.comps.map (fun x => x.iet.top) = [[1, 0, 2], [3, 4]] := by
  have h1 := picky_results
  have h2 := picky_components
  cases hD : Decomp.make pickyOps pickyPair pickyPairState with
  | error e => rw [hD] at h1; cases h1
  | ok D =>
    rw [hD] at h1 h2
    simp only [Except.map, Except.ok.injEq, pickyCall, pickyCalls, List.map_cons, List.cons.injEq, List.take] at h1 h2
    rcases hx : D.decompositionStepX PPL.ideal pickyOps 0 1 0 with ⟨e | st, D'⟩
    · rw [hx] at h1; simp at h1
    · rw [hx] at h1 h2
      rcases hy : D'.decompositionStepX PPL.ideal pickyOps 0 1 0 with ⟨e | st', D''⟩
      · rw [hy] at h1 h2
        refine ⟨D, D', D'', st, rfl, hx, ?_, h2.1, h2.2.1⟩
        have := h1.2.1
        simp only [Except.error.injEq] at this
        rw [hy, this]
      · rw [hy] at h1; simp at h1

open Examples in
/-- The theorems on calls that return and on calls that throw, for this example: one step of Rauzy induction or more has been performed on a component with
the labels 0, 1, 2. -/
example : ∃ (A B : AIET Q2), A.top = [0, 1, 2] ∧ B.top = [1, 0, 2] ∧ Relation.ReflTransGen RauzyStep A B := by
  obtain ⟨D, D', D'', step, h1, h2, h3, h4, h5⟩ := C87_changed
  have hc := (DCatch.init h1).step (L := PPL.ideal) 0 1 0 h2
  obtain ⟨-, -, -, x, x', k1, k2, k3, -⟩ := C87_throw hQ2 picky_coordinates q2Coef_injective PPL.ideal_lawful pickyPair_ok hc h3 trivial
  refine ⟨_, _, ?_, ?_, k3⟩
  · have := congrArg (fun l => l[0]?) h4
    simp only [List.getElem?_map, k1, Option.map_some] at this
    exact Option.some.inj this
  · have := congrArg (fun l => l[0]?) h5
    simp only [List.getElem?_map, k2, Option.map_some] at this
    exact Option.some.inj this

/-- Without exceptions the states are those of `DReach`. -/
theorem DReach.catch {L : PPL} {E : IET T} {s : σ} {D : Decomp σ T} {steps : List DStep} (h : DReach L O E s D steps) : DCatch L O E s D steps := by
  induction h with
  | init h => exact .init h
  | @step D D' steps step fuel limit i _ h2 ih =>
    rw [← forget_decompositionStep, Outcome.forget_eq_ok] at h2
    exact ih.step fuel limit i h2

theorem LawfulLengths.Coordinates.orException {H : LawfulLengths O c ε} (hf : H.Coordinates f) (he : ∀ l s e, f l s = .error e → e.Exception) :
    H.CoordinatesOrException f :=
  ⟨fun e ⟨l, s, h⟩ => he l s e h, fun s l hs hl hn => .inr (hf s l hs hl hn)⟩

/-- The decomposition of a rotation by `√2` has a component without periodic trajectories. -/
example : ∃ D steps x, DCatch PPL.ideal ((SLengths.ops Examples.q2Arith).rebase (SLengths.ops Examples.q2Arith).coefficients) Examples.rotIET Examples.rotState D steps ∧
    x ∈ D.comps ∧ x.withoutPeriodicTrajectory = some true := by
  obtain ⟨D, steps, x, h1, h2, h3, -⟩ := Examples.rot_decomposition
  exact ⟨D, steps, x, h1.catch, h2, h3⟩

end Verif
