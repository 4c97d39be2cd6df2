import Verif.Proofs.PointerInduce
import Verif.Model.PointerDecomp

/-!
# Decompositions on the level of list nodes do the same as on the level of labels
-/

namespace Verif

set_option linter.unusedSectionVars false

variable {σ T : Type} {m₀ : Mem}

/-- The nodes represent a component. -/
structure RepComp (m : Mem) (P : PComp T) (C : Comp T) : Prop where
  iet : Rep m P.iet C.iet
  cylinder : P.cylinder = C.cylinder
  withoutPeriodicTrajectory : P.withoutPeriodicTrajectory = C.withoutPeriodicTrajectory
  keane : P.keane = C.keane

theorem RepComp.view {m : Mem} {P : PComp T} {C : Comp T} (h : RepComp m P C) : P.view m = .ok C := by
  rw [PComp.view, h.iet.view, ok_bind, h.cylinder, h.withoutPeriodicTrajectory, h.keane]
  rfl

/-- The nodes represent the decomposition, different components have different nodes.  None of these is in the memory `m₀`, which has not
been changed. -/
structure RepDecomp (m₀ : Mem) (D : Decomp σ T) (PD : PDecomp σ T) : Prop where
  ok : PD.mem.Ok
  lengths : D.lengths = PD.lengths
  reps : List.Forall₂ (fun P C => RepComp PD.mem P C) PD.comps D.comps
  disj : PD.comps.Pairwise (fun P Q => ∀ a ∈ P.iet.nodes, a ∉ Q.iet.nodes)
  next : m₀.next ≤ PD.mem.next
  same : ∀ a, a < m₀.next → PD.mem.node a = m₀.node a
  new : ∀ Q ∈ PD.comps, ∀ a ∈ Q.iet.nodes, m₀.next ≤ a

theorem mapM_view {m : Mem} : ∀ {Ps : List (PComp T)} {Cs : List (Comp T)}, List.Forall₂ (fun P C => RepComp m P C) Ps Cs →
    Ps.mapM (fun c => c.view m) = .ok Cs
  | _, _, .nil => rfl
  | _, _, .cons h hs => by rw [List.mapM_cons, h.view, ok_bind, mapM_view hs]; rfl

namespace RepDecomp

variable {D : Decomp σ T} {PD : PDecomp σ T}

theorem view (h : RepDecomp m₀ D PD) : PD.view = .ok D := by
  rw [PDecomp.view, mapM_view h.reps, ok_bind, ← h.lengths]
  rfl

theorem comp (h : RepDecomp m₀ D PD) (i : ℕ) :
    RelM (fun C P => RepComp PD.mem P C ∧ PD.comps[i]? = some P ∧ D.comps[i]? = some C) (D.comp i) (PD.comp i) := by
  unfold Decomp.comp PDecomp.comp
  rcases hP : PD.comps[i]? with _ | P
  · have : D.comps[i]? = none := by
      rw [List.getElem?_eq_none_iff] at hP ⊢
      rw [← h.reps.length_eq]; exact hP
    rw [this]; exact rfl
  · have hi : i < PD.comps.length := (List.getElem?_eq_some_iff.1 hP).1
    have hi' : i < D.comps.length := h.reps.length_eq ▸ hi
    have hC : D.comps[i]? = some D.comps[i] := List.getElem?_eq_getElem hi'
    rw [hC]
    refine ⟨?_, rfl, rfl⟩
    have := h.reps.get hi hi'
    rw [List.getElem?_eq_some_iff] at hP
    obtain ⟨_, hP⟩ := hP
    simpa [hP] using this

theorem lt (h : RepDecomp m₀ D PD) {Q : PComp T} (hQ : Q ∈ PD.comps) {a : Addr} (ha : a ∈ Q.iet.nodes) : a < PD.mem.next := by
  obtain ⟨j, hj, rfl⟩ := List.getElem_of_mem hQ
  have hF := (h.reps.get hj (h.reps.length_eq ▸ hj)).iet
  have hlive : PD.mem.Live a := by
    rcases List.mem_append.1 ha with h1 | h1
    · exact hF.linked.live h1
    · exact hF.linked.live' h1
  obtain ⟨n, hn⟩ := hlive
  by_contra hc
  rw [h.ok a (by omega)] at hn
  exact absurd hn (by simp)

/-- Replacing the lengths. -/
theorem withLengths (h : RepDecomp m₀ D PD) (s : LWC σ) : RepDecomp m₀ { D with lengths := s } { PD with lengths := s } :=
  ⟨h.ok, rfl, h.reps, h.disj, h.next, h.same, h.new⟩

/-- Replacing a component by the result of a call on it. -/
theorem replace (h : RepDecomp m₀ D PD) {i : ℕ} {P P' : PComp T} {C' : Comp T} {R : Option (IET T)} {R' : Option (PIET T)} {m' : Mem}
    (hP : PD.comps[i]? = some P) (hs : SplitRel PD.mem P.iet R C'.iet R' P'.iet m') (hc : RepComp m' P' C') (s : LWC σ) :
    RepDecomp m₀ { D.setComp i C' with lengths := s } { PD.setComp i P' with lengths := s, mem := m' } ∧
      ∀ Q ∈ R', (∀ a ∈ Q.nodes, m₀.next ≤ a) ∧ ∀ F ∈ PD.comps.set i P', ∀ a ∈ F.iet.nodes, a ∉ Q.nodes := by
  have hsymm : ∀ P Q : PComp T, (∀ a ∈ P.iet.nodes, a ∉ Q.iet.nodes) → ∀ a ∈ Q.iet.nodes, a ∉ P.iet.nodes := fun P Q h1 a h2 h3 => h1 a h3 h2
  have hother : ∀ (j : ℕ) Q, j ≠ i → PD.comps[j]? = some Q → ∀ a ∈ Q.iet.nodes, a < PD.mem.next ∧ a ∉ P.iet.nodes := by
    intro j Q hj hQ a ha
    refine ⟨h.lt (List.mem_of_getElem? hQ) ha, ?_⟩
    exact pairwise_getElem_ne hsymm h.disj hQ hP hj a ha
  have hnew : ∀ (j : ℕ) Q, j ≠ i → PD.comps[j]? = some Q → ∀ a ∈ Q.iet.nodes, a ∉ P'.iet.nodes ++ R'.toList.flatMap PIET.nodes := by
    intro j Q hj hQ a ha hc
    have h1 := hother j Q hj hQ a ha
    rcases hs.frame.sub a hc with h2 | h2
    · exact h1.2 h2
    · omega
  have hbase : ∀ a ∈ P'.iet.nodes ++ R'.toList.flatMap PIET.nodes, m₀.next ≤ a := by
    intro a ha
    rcases hs.frame.sub a ha with h2 | h2
    · exact h.new P (List.mem_of_getElem? hP) a h2
    · exact h.next.trans h2.1
  refine ⟨⟨hs.frame.ok, rfl, ?_, ?_, h.next.trans hs.frame.next, ?_, ?_⟩, ?_⟩
  · refine forall₂_set_of i h.reps ?_ hc
    intro j Q F hj hQ hQF
    exact ⟨hQF.iet.frame (fun a ha => hs.frame.same a (hother j Q hj hQ a ha).1 (hother j Q hj hQ a ha).2), hQF.cylinder,
      hQF.withoutPeriodicTrajectory, hQF.keane⟩
  · show (PD.comps.set i P').Pairwise _
    rw [List.pairwise_iff_getElem]
    intro k j hk hj hkj a ha hb
    simp only [List.length_set] at hk hj
    rw [List.getElem_set] at ha hb
    by_cases ci : i = k
    · rw [if_pos ci] at ha
      have cj : i ≠ j := by omega
      rw [if_neg cj] at hb
      exact hnew j _ (Ne.symm cj) (List.getElem?_eq_getElem hj) a hb (List.mem_append_left _ ha)
    · rw [if_neg ci] at ha
      by_cases cj : i = j
      · rw [if_pos cj] at hb
        exact hnew k _ (Ne.symm ci) (List.getElem?_eq_getElem hk) a ha (List.mem_append_left _ hb)
      · rw [if_neg cj] at hb
        exact List.pairwise_iff_getElem.1 h.disj k j hk hj hkj a ha hb
  · intro a ha
    refine (hs.frame.same a (lt_of_lt_of_le ha h.next) ?_).trans (h.same a ha)
    intro hc
    exact absurd (h.new P (List.mem_of_getElem? hP) a hc) (by omega)
  · intro Q hQ a ha
    rcases mem_set_iff_ne hQ with rfl | ⟨j, hj, hQ⟩
    · exact hbase a (List.mem_append_left _ ha)
    · exact h.new Q (List.mem_of_getElem? hQ) a ha
  · intro Q hQ
    refine ⟨fun a ha => hbase a (List.mem_append_right _ (List.mem_flatMap.2 ⟨Q, by simpa using hQ, ha⟩)), ?_⟩
    intro F hF a ha hb
    rcases mem_set_iff_ne hF with rfl | ⟨j, hj, hF⟩
    · exact hs.disj Q hQ a hb ha
    · exact hnew j F hj hF a ha (List.mem_append_right _ (List.mem_flatMap.2 ⟨Q, by simpa using hQ, hb⟩))

/-- Changing the flags of a component. -/
theorem setComp (h : RepDecomp m₀ D PD) {i : ℕ} {P P' : PComp T} {C' : Comp T} (hP : PD.comps[i]? = some P) (hn : P'.iet.nodes = P.iet.nodes)
    (hc : RepComp PD.mem P' C') : RepDecomp m₀ (D.setComp i C') (PD.setComp i P') := by
  have := (h.replace (R := none) (R' := none) hP
    (SplitRel.none hc.iet (Frame.refl h.ok (fun a ha => hn ▸ ha))) hc D.lengths).1
  exact ⟨this.ok, h.lengths, this.reps, this.disj, this.next, this.same, this.new⟩

/-- Adding a component. -/
theorem append (h : RepDecomp m₀ D PD) {E : IET T} {P : PIET T} (hr : Rep PD.mem P E) (hb : ∀ a ∈ P.nodes, m₀.next ≤ a) (hd : ∀ F ∈ PD.comps, ∀ a ∈ F.iet.nodes, a ∉ P.nodes) :
    RepDecomp m₀ { D with comps := D.comps ++ [{ iet := E }] } { PD with comps := PD.comps ++ [{ iet := P }] } := by
  refine ⟨h.ok, h.lengths, List.rel_append h.reps (.cons ⟨hr, rfl, rfl, rfl⟩ .nil), ?_, h.next, h.same, ?_⟩
  swap
  · intro Q hQ a ha
    rcases List.mem_append.1 hQ with hQ | hQ
    · exact h.new Q hQ a ha
    · rw [List.mem_singleton] at hQ
      subst hQ
      exact hb a ha
  show (PD.comps ++ [({ iet := P } : PComp T)]).Pairwise _
  rw [List.pairwise_append]
  refine ⟨h.disj, by simp, ?_⟩
  intro Q hQ F hF a ha
  rw [List.mem_singleton] at hF
  subst hF
  exact hd Q hQ a ha

end RepDecomp

/-! ### Functions that only change the connections -/

theorem Decomp.modify_comps {D D' : Decomp σ T} {l : Label} {f : Conns → Conns} (h : D.modify l f = .ok D') : D'.comps = D.comps := by
  unfold Decomp.modify at h
  rw [bindM_ok] at h
  obtain ⟨m, _, h⟩ := h
  cases h; rfl

theorem Decomp.registerSeparating_comps {D D' : Decomp σ T} {i j : ℕ} {c : Conn} (h : D.registerSeparating i c j = .ok D') : D'.comps = D.comps := by
  unfold Decomp.registerSeparating at h
  simp only [bindM_ok] at h
  obtain ⟨_, _, _, _, _, _, _, _, D1, h1, _, _, _, _, D2, h2, _, _, _, _, _, _, _, _, h⟩ := h
  cases h
  rw [Decomp.modify_comps h2, Decomp.modify_comps h1]

theorem Decomp.nonSeparating_comps {D D' : Decomp σ T} {i : ℕ} {b t : Label} {st : DStep} (h : D.nonSeparating i b t = .ok (st, D')) :
    D'.comps = D.comps := by
  unfold Decomp.nonSeparating at h
  simp only [bindM_ok] at h
  obtain ⟨_, _, _, _, _, _, _, _, _, _, _, _, _, _, _, _, D1, h1, D2, h2, _, _, D3, h3, D4, h4, _, _, _, _, h⟩ := h
  cases h
  rw [Decomp.modify_comps h4, Decomp.modify_comps h3, Decomp.modify_comps h2, Decomp.modify_comps h1]

theorem Decomp.inject_comps {D D' : Decomp σ T} {g : HalfEdge} {left right : List (Label × Label)} {r : List Conn × List Conn}
    (h : D.inject g left right = .ok (r, D')) : D'.comps = D.comps := by
  unfold Decomp.inject at h
  simp only [bindM_ok] at h
  obtain ⟨_, _, _, _, _, _, D1, h1, _, _, D2, h2, _, _, h⟩ := h
  cases h
  rw [Decomp.modify_comps h2, Decomp.modify_comps h1]

theorem RepDecomp.of_comps {D D' : Decomp σ T} {PD : PDecomp σ T} (h : RepDecomp m₀ D PD) (hc : D'.comps = D.comps) :
    RepDecomp m₀ D' { PD with lengths := D'.lengths } :=
  ⟨h.ok, rfl, hc ▸ h.reps, h.disj, h.next, h.same, h.new⟩

theorem inject_sim {D : Decomp σ T} {PD : PDecomp σ T} (h : RepDecomp m₀ D PD) (g : HalfEdge) (left right : List (Label × Label)) :
    RelM (fun x y => x.1 = y.1 ∧ RepDecomp m₀ x.2 y.2) (D.inject g left right) (PD.inject g left right) := by
  unfold PDecomp.inject
  rw [h.view, ok_bind]
  rcases e : D.inject g left right with _ | ⟨r, D'⟩
  · exact rfl
  · exact ⟨rfl, h.of_comps (Decomp.inject_comps e)⟩

theorem nonSeparating_sim {D : Decomp σ T} {PD : PDecomp σ T} (h : RepDecomp m₀ D PD) (i : ℕ) (b t : Label) :
    RelM (fun x y => x.1 = y.1 ∧ RepDecomp m₀ x.2 y.2) (D.nonSeparating i b t) (PD.nonSeparating i b t) := by
  unfold PDecomp.nonSeparating
  rw [h.view, ok_bind]
  rcases e : D.nonSeparating i b t with _ | ⟨r, D'⟩
  · exact rfl
  · exact ⟨rfl, h.of_comps (Decomp.nonSeparating_comps e)⟩

theorem separating_sim {D : Decomp σ T} {PD : PDecomp σ T} (h : RepDecomp m₀ D PD) (i : ℕ) (b t : Label) {E : IET T} {P : PIET T}
    (hr : Rep PD.mem P E) (hb : ∀ a ∈ P.nodes, m₀.next ≤ a) (hd : ∀ F ∈ PD.comps, ∀ a ∈ F.iet.nodes, a ∉ P.nodes) :
    RelM (fun x y => x.1 = y.1 ∧ RepDecomp m₀ x.2 y.2) (D.separating i b t E) (PD.separating i b t P) := by
  have h2 := h.append hr hb hd
  unfold Decomp.separating PDecomp.separating
  rw [h.view, ok_bind]
  refine RelM.refl_bind fun c _ => ?_
  refine RelM.refl_bind fun _ _ => ?_
  refine RelM.refl_bind fun _ _ => ?_
  refine RelM.refl_bind fun eq _ => ?_
  refine RelM.refl_bind fun x _ => ?_
  refine RelM.refl_bind fun y _ => ?_
  dsimp only
  rw [h2.view, ok_bind, h.reps.length_eq]
  refine RelM.refl_bind fun D' e => ?_
  exact ⟨rfl, h2.of_comps (Decomp.registerSeparating_comps e)⟩

theorem conclude_sim {D : Decomp σ T} {PD : PDecomp σ T} (h : RepDecomp m₀ D PD) (i : ℕ) {st : InductionStep T} {st' : PStep T}
    (h1 : st.result = st'.result) (h2 : st.connection = st'.connection)
    (h3 : List.Forall₂ (fun Q F => Rep PD.mem Q F) st'.additional.toList st.additional.toList)
    (h4 : ∀ Q ∈ st'.additional, (∀ a ∈ Q.nodes, m₀.next ≤ a) ∧ ∀ F ∈ PD.comps, ∀ a ∈ F.iet.nodes, a ∉ Q.nodes) :
    RelM (fun x y => x.1 = y.1 ∧ RepDecomp m₀ x.2 y.2) (D.conclude i st) (PD.conclude i st') := by
  obtain ⟨r, c, ad⟩ := st
  obtain ⟨r', c', ad'⟩ := st'
  dsimp only at h1 h2 h3 h4
  subst h1 h2
  unfold Decomp.conclude PDecomp.conclude
  refine (h.comp i).bind ?_
  rintro C P ⟨g1, g2, g3⟩
  dsimp only
  cases r with
  | limitReached => exact ⟨rfl, h⟩
  | cylinder => exact ⟨rfl, h.setComp g2 rfl ⟨g1.iet, rfl, rfl, rfl⟩⟩
  | withoutPeriodicTrajectoryBoshernitzan => exact ⟨rfl, h.setComp g2 rfl ⟨g1.iet, rfl, rfl, g1.keane⟩⟩
  | withoutPeriodicTrajectoryAutoSimilar => exact ⟨rfl, h.setComp g2 rfl ⟨g1.iet, rfl, rfl, g1.keane⟩⟩
  | nonSeparatingConnection =>
    cases c with
    | none => exact rfl
    | some c => exact nonSeparating_sim h i c.1 c.2
  | separatingConnection =>
    cases c with
    | none => exact rfl
    | some c =>
      cases ad' with
      | none => cases ad with
        | none => exact rfl
        | some R => simp at h3
      | some R' => cases ad with
        | none => simp at h3
        | some R =>
          simp only [Option.toList_some, List.forall₂_cons] at h3
          exact separating_sim h i c.1 c.2 h3.1 (h4 R' rfl).1 (h4 R' rfl).2

/-! ### Decomposition steps -/

variable [CommRing T] [LinearOrder T]

theorem make_sim (O : LengthsOps σ T) {P : PIET T} {E : IET T} {m : Mem} (h : Rep m P E) (hm : m.Ok) (s : σ) :
    RelM (RepDecomp m) (Decomp.make O E s) (PDecomp.make O P s m) := by
  unfold Decomp.make PDecomp.make
  rw [h.view, ok_bind]
  refine (mk?_made (LWC.ops O) E.top E.bottom _ m).bind ?_
  rintro F ⟨Q, m'⟩ ⟨rfl, h3, h4⟩
  dsimp only at h3 h4
  have hn : E.top.Nodup := h.top ▸ h.linked.nodup
  have hp : E.bottom.Perm E.top := by rw [← h.top, ← h.bottom]; exact h.linked.perm
  have hL : Linked m' Q.top Q.bottom := h4.linked hn hp
  have hrep : Rep m' Q (IET.fresh E.top E.bottom) := by
    refine ⟨hL, h4.top, h4.bottom, ?_, ?_, ?_⟩ <;> rw [h3] <;> rfl
  refine ⟨h4.ok hm, rfl, .cons ⟨hrep, rfl, rfl, rfl⟩ .nil, by simp, h4.next, h4.old, ?_⟩
  intro F hF a ha
  rw [List.mem_singleton] at hF
  subst hF
  exact (h4.new a ha).1

theorem chunks_sim (L : PPL) (O : LengthsOps σ T) (cost : Option ℤ) : ∀ (n : ℕ) (limit : ℤ) {m : Mem} {P : PIET T} {E : IET T} (_ : Rep m P E) (_ : m.Ok)
    (s : LWC σ), RelM (fun x y => StepRel m P x.1 x.2.1 y.1 y.2.1 y.2.2.2 ∧ x.2.2 = y.2.2.1) (Decomp.chunks L O cost n limit E s)
      (PDecomp.chunks L O cost n limit P s m)
  | 0, _, _, _, _, _, _, _ => rfl
  | n + 1, limit, m, P, E, h, hm, s => by
    unfold Decomp.chunks PDecomp.chunks
    refine (induce_sim L (LWC.ops O) 0 (Decomp.chunkSize cost limit) h hm s).bind ?_
    rintro ⟨st, E1, s1⟩ ⟨st', P1, s1', m1⟩ ⟨⟨g1, g2, g3⟩, g4⟩
    dsimp only at g1 g2 g3 g4 ⊢
    subst g4
    rw [g1]
    by_cases c : st'.result = .limitReached ∧ limit - Decomp.chunkSize cost limit ≠ 0
    · rw [if_pos c, if_pos c]
      refine (chunks_sim L O cost n _ g3.rep g3.frame.ok s1).mono ?_
      rintro ⟨st2, E2, s2⟩ ⟨st2', P2, s2', m2⟩ ⟨⟨f1, f2, f3⟩, f4⟩
      refine ⟨⟨f1, f2, f3.rep, f3.reps, f3.disj, ?_⟩, f4⟩
      exact (g3.frame.perm (fun _ => Iff.rfl) (fun a ha => List.mem_append_left _ ha)).trans f3.frame
    · rw [if_neg c, if_neg c]
      exact ⟨⟨g1, g2, g3⟩, rfl⟩

theorem boshernitzanCost_same (O : LengthsOps σ T) {E E' : IET T} {s : LWC σ} {v : Option ℤ} (h : Decomp.boshernitzanCost O E s = .ok (v, E')) :
    E'.top = E.top ∧ E'.bottom = E.bottom ∧ E'.swapped = E.swapped := by
  unfold Decomp.boshernitzanCost at h
  rw [bindM_ok] at h
  obtain ⟨⟨v', E1⟩, h1, h⟩ := h
  cases h
  exact IET.safInvariant_same _ h1

theorem stepBounded_sim (L : PPL) (O : LengthsOps σ T) (limit : ℤ) (i : ℕ) {D : Decomp σ T} {PD : PDecomp σ T} (h : RepDecomp m₀ D PD) :
    RelM (fun x y => x.1 = y.1 ∧ RepDecomp m₀ x.2 y.2) (D.decompositionStepBounded L O limit i) (PD.decompositionStepBounded L O limit i) := by
  unfold Decomp.decompositionStepBounded PDecomp.decompositionStepBounded
  refine (h.comp i).bind ?_
  rintro C P ⟨g1, g2, g3⟩
  rw [g1.cylinder, g1.keane]
  refine RelM.refl_bind fun _ _ => ?_
  rw [h.view, ok_bind, g1.iet.view, ok_bind, ← h.lengths]
  dsimp only
  refine RelM.refl_bind ?_
  rintro ⟨cost, E⟩ e
  have hs := boshernitzanCost_same O e
  refine (chunks_sim L O cost _ limit (g1.iet.aux hs.1 hs.2.1 hs.2.2) h.ok _).bind ?_
  rintro ⟨st, E1, s1⟩ ⟨st', P1, s1', m1⟩ ⟨⟨f1, f2, f3⟩, f4⟩
  dsimp only at f1 f2 f3 f4 ⊢
  subst f4
  have hsp : SplitRel PD.mem P.iet st.additional E1 st'.additional P1 m1 := f3.of_perm (List.Perm.refl _)
  have := h.replace (P' := ⟨P1, P.cylinder, P.withoutPeriodicTrajectory, P.keane⟩) (C' := ⟨E1, C.cylinder, C.withoutPeriodicTrajectory, C.keane⟩)
    g2 hsp ⟨f3.rep, g1.cylinder, g1.withoutPeriodicTrajectory, g1.keane⟩ s1
  rw [← g1.cylinder, ← g1.keane]
  rw [← g1.cylinder, ← g1.keane] at this
  exact conclude_sim this.1 i f1 f2 f3.reps this.2

theorem unlimited_sim (L : PPL) (O : LengthsOps σ T) (cost : Option ℤ) (i : ℕ) : ∀ (n : ℕ) (limit : ℤ) {D : Decomp σ T} {PD : PDecomp σ T}
    (_ : RepDecomp m₀ D PD), RelM (fun x y => x.1 = y.1 ∧ RepDecomp m₀ x.2 y.2) (Decomp.unlimited L O cost i n limit D)
      (PDecomp.unlimited L O cost i n limit PD)
  | 0, _, _, _, _ => rfl
  | n + 1, limit, D, PD, h => by
    unfold Decomp.unlimited PDecomp.unlimited
    refine (stepBounded_sim L O limit i h).bind ?_
    rintro ⟨st, D1⟩ ⟨st', PD1⟩ ⟨g1, g2⟩
    dsimp only at g1 g2 ⊢
    subst g1
    by_cases c : st.result ≠ .limitReached
    · rw [if_pos c, if_pos c]; exact ⟨rfl, g2⟩
    · rw [if_neg c, if_neg c]
      cases cost with
      | some k => exact unlimited_sim L O _ i n k g2
      | none =>
        dsimp only
        by_cases c2 : 2 * (limit + 1) ≤ Decomp.intMax
        · rw [if_pos c2, if_pos c2]; exact unlimited_sim L O _ i n _ g2
        · rw [if_neg c2, if_neg c2]; exact rfl

theorem step_sim (L : PPL) (O : LengthsOps σ T) (fuel : ℕ) (limit : ℤ) (i : ℕ) {D : Decomp σ T} {PD : PDecomp σ T} (h : RepDecomp m₀ D PD) :
    RelM (fun x y => x.1 = y.1 ∧ RepDecomp m₀ x.2 y.2) (D.decompositionStep L O fuel limit i) (PD.decompositionStep L O fuel limit i) := by
  unfold Decomp.decompositionStep PDecomp.decompositionStep
  by_cases c : limit = -1
  · rw [if_pos c, if_pos c]
    refine (h.comp i).bind ?_
    rintro C P ⟨g1, g2, g3⟩
    rw [g1.cylinder, g1.keane]
    refine RelM.refl_bind fun _ _ => ?_
    rw [g1.iet.view, ok_bind, ← h.lengths]
    refine RelM.refl_bind ?_
    rintro ⟨cost, E⟩ e
    have hs := boshernitzanCost_same O e
    refine unlimited_sim L O cost i fuel 0 (h.setComp g2 rfl ?_)
    exact ⟨g1.iet.aux hs.1 hs.2.1 hs.2.2, rfl, g1.withoutPeriodicTrajectory, rfl⟩
  · rw [if_neg c, if_neg c]
    exact stepBounded_sim L O limit i h

theorem decomposeComponent_sim (L : PPL) (O : LengthsOps σ T) (target : Comp T → Bool) (limit : ℤ) : ∀ (n i : ℕ) {D : Decomp σ T} {PD : PDecomp σ T}
    (_ : RepDecomp m₀ D PD), RelM (fun x y => x.1 = y.1 ∧ RepDecomp m₀ x.2 y.2) (D.decomposeComponent L O target limit n i)
      (PD.decomposeComponent L O target limit n i)
  | 0, _, _, _, _ => rfl
  | n + 1, i, D, PD, h => by
    unfold Decomp.decomposeComponent PDecomp.decomposeComponent
    refine (h.comp i).bind ?_
    rintro C P ⟨g1, g2, g3⟩
    rw [g1.view, ok_bind]
    by_cases c : target C
    · rw [if_pos c, if_pos c]; exact ⟨rfl, h⟩
    rw [if_neg c, if_neg c]
    refine (step_sim L O n limit i h).bind ?_
    rintro ⟨st, D1⟩ ⟨st', PD1⟩ ⟨f1, f2⟩
    dsimp only at f1 f2 ⊢
    subst f1
    by_cases c2 : st.result = .limitReached
    · rw [if_pos c2, if_pos c2]; exact ⟨rfl, f2⟩
    rw [if_neg c2, if_neg c2]
    cases st.additional with
    | none => exact decomposeComponent_sim L O target limit n i f2
    | some j =>
      refine (decomposeComponent_sim L O target limit n j f2).bind ?_
      rintro ⟨x, D2⟩ ⟨x', PD2⟩ ⟨e1, e2⟩
      dsimp only at e1 e2 ⊢
      refine (decomposeComponent_sim L O target limit n i e2).bind ?_
      rintro ⟨y, D3⟩ ⟨y', PD3⟩ ⟨e3, e4⟩
      dsimp only at e3 e4 ⊢
      exact ⟨by rw [e1, e3], e4⟩

theorem decomposeAll_sim (L : PPL) (O : LengthsOps σ T) (target : Comp T → Bool) (limit : ℤ) (fuel : ℕ) : ∀ (is : List ℕ) {D : Decomp σ T}
    {PD : PDecomp σ T} (_ : RepDecomp m₀ D PD), RelM (fun x y => x.1 = y.1 ∧ RepDecomp m₀ x.2 y.2) (D.decomposeAll L O target limit fuel is)
      (PD.decomposeAll L O target limit fuel is)
  | [], _, _, h => ⟨rfl, h⟩
  | i :: is, D, PD, h => by
    unfold Decomp.decomposeAll PDecomp.decomposeAll
    refine (decomposeComponent_sim L O target limit fuel i h).bind ?_
    rintro ⟨x, D1⟩ ⟨x', PD1⟩ ⟨e1, e2⟩
    dsimp only at e1 e2 ⊢
    subst e1
    cases x with
    | true => exact decomposeAll_sim L O target limit fuel is e2
    | false => exact ⟨rfl, e2⟩

theorem decompose_sim (L : PPL) (O : LengthsOps σ T) (target : Comp T → Bool) (limit : ℤ) (fuel : ℕ) {D : Decomp σ T}
    {PD : PDecomp σ T} (h : RepDecomp m₀ D PD) : RelM (fun x y => x.1 = y.1 ∧ RepDecomp m₀ x.2 y.2) (D.decompose L O target limit fuel)
      (PD.decompose L O target limit fuel) := by
  unfold Decomp.decompose PDecomp.decompose
  rw [h.reps.length_eq]
  exact decomposeAll_sim L O target limit fuel _ h

end Verif
