import Verif.Proofs.Decompose
import Verif.ExamplesDecomp

/-!
# C35, C36, C37, C40, C49: components and connections of a decomposition
-/

namespace Verif

set_option linter.unusedSectionVars false

variable {σ T ε : Type} [CommRing T] [LinearOrder T] [IsStrictOrderedRing T] {O : LengthsOps σ T} {d : ℕ} {c : T →+ (Fin d → ℚ)}
  {P : Type} [CommRing P] [LinearOrder P] [IsStrictOrderedRing P]

/-! ### C35 -/

/-- The labels that the calls of `decompositionStep` have eliminated: the targets of the connections reported by
NON_SEPARATING_CONNECTION. -/
def eliminated (steps : List DStep) : List Label :=
  (steps.filter (fun st => st.result = .nonSeparatingConnection)).filterMap (fun st => st.connection.map (fun c => c.target.label))

theorem flatMap_set_perm {α β : Type} {l : List α} {i : ℕ} {x y : α} (h : l[i]? = some x) (f : α → List β) :
    (l.flatMap f).Perm (f x ++ (l.eraseIdx i).flatMap f) ∧ ((l.set i y).flatMap f).Perm (f y ++ (l.eraseIdx i).flatMap f) := by
  constructor
  · have := (perm_cons_eraseIdx h).flatMap_right f
    simpa using this
  · have := (set_perm_cons y h).flatMap_right f
    simpa using this

/-- A step moves labels between components and eliminates the targets of the connections which do not separate. -/
theorem CompsEffect.labels {comps comps' : List (Comp T)} {i : ℕ} {x : Comp T} {step : DStep} (hx : comps[i]? = some x) (he : CompsEffect comps i x step comps')
    (steps : List DStep) : (comps'.flatMap (fun x => x.iet.top) ++ eliminated (steps ++ [step])).Perm (comps.flatMap (fun x => x.iet.top) ++ eliminated steps) := by
  have hel : eliminated (steps ++ [step]) = eliminated steps ++ eliminated [step] := by simp [eliminated]
  rw [hel]
  cases he with
  | @same x' g1 g2 g3 g4 g5 g6 g7 g8 g9 g10 =>
    have e : eliminated [step] = [] := by simp [eliminated, g5]
    obtain ⟨e1, e2⟩ := flatMap_set_perm (y := x') hx (fun x : Comp T => x.iet.top)
    rw [e, List.append_nil]
    exact (e2.trans ((g6.append_right _).trans e1.symm)).append_right _
  | @split x' y conn g1 g2 g3 g4 g5 g6 g7 g8 g9 g10 g11 =>
    have e : eliminated [step] = [] := by simp [eliminated, g1]
    obtain ⟨e1, e2⟩ := flatMap_set_perm (y := x') hx (fun x : Comp T => x.iet.top)
    rw [e, List.append_nil, List.flatMap_append]
    refine List.Perm.append_right _ ?_
    rw [List.perm_iff_count] at *
    intro z
    have e1 := e1 z
    have e2 := e2 z
    have g4 := g4 z
    simp only [List.flatMap_cons, List.flatMap_nil, List.append_nil, List.count_append] at *
    omega
  | @merge x' conn g1 g2 g3 g4 g5 g6 g7 =>
    have e : eliminated [step] = [conn.target.label] := by simp [eliminated, g1, g2]
    obtain ⟨e1, e2⟩ := flatMap_set_perm (y := x') hx (fun x : Comp T => x.iet.top)
    rw [e]
    rw [show conn.target.label :: x'.iet.top = [conn.target.label] ++ x'.iet.top from rfl] at g4
    rw [List.perm_iff_count] at *
    intro z
    have e1 := e1 z
    have e2 := e2 z
    have g4 := g4 z
    simp only [List.count_append] at *
    omega

/-- **C35** In every state of a decomposition that can be reached by calls of `decompositionStep`, every component is a valid IET and not
swapped.  The labels of the components are pairwise different; together with the labels that have been eliminated by a
NON_SEPARATING_CONNECTION they are the labels of the original IET. -/
theorem C35_partition (H : LawfulLengths O c ε) {L : PPL} (hL : L.Lawful) {E : IET T} {s : σ} (hE : H.Ok E s) {D : Decomp σ T}
    {steps : List DStep} (h : DReach L O E s D steps) :
    (∀ x ∈ D.comps, (H.abs x.iet D.lengths.inner).Valid ∧ x.iet.swapped = false) ∧
    D.comps.Pairwise (fun x y => ∀ a ∈ x.iet.top, a ∉ y.iet.top) ∧
    (D.comps.flatMap (fun x => x.iet.top) ++ eliminated steps).Perm E.top := by
  have hinv := h.inv hL H (ι := AddMonoidHom.id T) (fun _ _ h => h) hE
  refine ⟨fun x hx => ⟨(hinv.good x hx).ok.valid, hinv.swapped x hx⟩, hinv.disjoint, ?_⟩
  clear hinv
  induction h with
  | init h =>
    obtain ⟨D', h1, h2, _⟩ := Decomp.make_spec H (ι := AddMonoidHom.id T) (fun _ _ h => h) hE
    rw [h] at h1
    cases h1
    simp [h2, eliminated, IET.fresh]
  | @step D D' steps step fuel limit i h1 h2 ih =>
    obtain ⟨x, hx, he, _⟩ := h1.effect hL H hE h2
    exact (he.labels hx steps).trans ih

theorem CompsEffect.described {H : LawfulLengths O c ε} {D D' : Decomp σ T} {A₀ A₀' : AIET T} {R R' : List Conn} {au au' : Bool → Prop}
    (hinv : D.Inv H (AddMonoidHom.id T) A₀ R au) (hinv' : D'.Inv H (AddMonoidHom.id T) A₀' R' au') {i : ℕ} {x : Comp T} {step : DStep}
    (hx : D.comps[i]? = some x) (he : CompsEffect D.comps i x step D'.comps)
    (hl : ∀ a, a ∉ x.iet.top → H.len D'.lengths.inner a = H.len D.lengths.inner a) :
    (∀ j y, j ≠ i → D.comps[j]? = some y → D'.comps[j]? = some y ∧ ∀ a ∈ y.iet.top, O.get a D'.lengths.inner = O.get a D.lengths.inner) ∧
    ∃ x x', D.comps[i]? = some x ∧ D'.comps[i]? = some x' ∧
      (step.result = .separatingConnection → ∃ y, D'.comps.length = D.comps.length + 1 ∧ D'.comps[D.comps.length]? = some y ∧
        step.additional = some D.comps.length ∧ (x'.iet.top ++ y.iet.top).Perm x.iet.top ∧ x'.iet.top ≠ [] ∧ y.iet.top ≠ []) ∧
      (step.result = .nonSeparatingConnection → ∃ conn, D'.comps.length = D.comps.length ∧ step.additional = none ∧
        step.connection = some conn ∧ (conn.target.label :: x'.iet.top).Perm x.iet.top ∧ x'.iet.top ≠ []) ∧
      (step.result ≠ .separatingConnection → step.result ≠ .nonSeparatingConnection → D'.comps.length = D.comps.length ∧
        step.additional = none ∧ step.connection = none ∧ x'.iet.top.Perm x.iet.top) := by
  have hlt := (List.getElem?_eq_some_iff.mp hx).1
  have hother : ∀ (x' : Comp T) (more : List (Comp T)) j y, j ≠ i → D.comps[j]? = some y → (D.comps.set i x' ++ more)[j]? = some y := by
    intro x' more j y hj hy
    have := (List.getElem?_eq_some_iff.mp hy).1
    rw [List.getElem?_append_left (by simpa using this), List.getElem?_set_ne (Ne.symm hj), hy]
  have hsame : ∀ (x' : Comp T) (more : List (Comp T)), (D.comps.set i x' ++ more)[i]? = some x' := by
    intro x' more
    rw [List.getElem?_append_left (by simpa using hlt), List.getElem?_set_self hlt]
  have hlens : ∀ j y, j ≠ i → D.comps[j]? = some y → y ∈ D'.comps → ∀ a ∈ y.iet.top, O.get a D'.lengths.inner = O.get a D.lengths.inner := by
    intro j y hj hy hy' a ha
    have hg := (hinv.good y (List.mem_of_getElem? hy)).ok
    have hg' := (hinv'.good y hy').ok
    rw [H.get_spec _ _ hg.inv.1 (hg.dom a ha).1, H.get_spec _ _ hg'.inv.1 (hg'.dom a ha).1]
    rw [hl a (pairwise_getElem_ne (fun _ _ h a ha ha' => h a ha' ha) hinv.disjoint hy hx hj a ha)]
  generalize hc : D'.comps = comps' at he
  rw [hc] at hlens
  cases he with
  | @same x' g1 g2 g3 g4 g5 g6 g7 g8 g9 g10 =>
    have h1 := hother x' []
    have h2 := hsame x' []
    rw [List.append_nil] at h1 h2
    refine ⟨fun j y hj hy => ⟨h1 j y hj hy, hlens j y hj hy (List.mem_of_getElem? (h1 j y hj hy))⟩, x, x', hx, h2,
      fun h => absurd h g4, fun h => absurd h g5, fun _ _ => ⟨by simp, g2, g1, g6⟩⟩
  | @split x' y conn g1 g2 g3 g4 g5 g6 g7 g8 g9 g10 g11 =>
    refine ⟨fun j y hj hy => ⟨hother _ _ j y hj hy, hlens j y hj hy (List.mem_of_getElem? (hother _ _ j y hj hy))⟩, x, x', hx, hsame _ _,
      fun _ => ⟨y, by simp, ?_, g3, g4, g5, g6⟩, fun h => ?_, fun h => absurd g1 h⟩
    · rw [List.getElem?_append_right (by simp)]; simp
    · rw [g1] at h; cases h
  | @merge x' conn g1 g2 g3 g4 g5 g6 g7 =>
    have h1 := hother x' []
    have h2 := hsame x' []
    rw [List.append_nil] at h1 h2
    refine ⟨fun j y hj hy => ⟨h1 j y hj hy, hlens j y hj hy (List.mem_of_getElem? (h1 j y hj hy))⟩, x, x', hx, h2,
      fun h => ?_, fun _ => ⟨conn, by simp, g3, g2, g4, g5⟩, fun _ h => absurd g1 h⟩
    rw [g1] at h; cases h

/-- **C35** `decompositionStep` on component `i` leaves all other components alone, including the lengths of their intervals.  The
labels of component `i` stay in it, except that with SEPARATING_CONNECTION some of them get moved to the one new component that is
created then, and with NON_SEPARATING_CONNECTION the target of the connection disappears. -/
theorem C35_step (H : LawfulLengths O c ε) {L : PPL} (hL : L.Lawful) {E : IET T} {s : σ} (hE : H.Ok E s) {D D' : Decomp σ T}
    {steps : List DStep} (h : DReach L O E s D steps) {fuel : ℕ} {limit : ℤ} {i : ℕ} {step : DStep}
    (hr : D.decompositionStep L O fuel limit i = .ok (step, D')) :
    (∀ j y, j ≠ i → D.comps[j]? = some y → D'.comps[j]? = some y ∧ ∀ a ∈ y.iet.top, O.get a D'.lengths.inner = O.get a D.lengths.inner) ∧
    ∃ x x', D.comps[i]? = some x ∧ D'.comps[i]? = some x' ∧
      (step.result = .separatingConnection → ∃ y, D'.comps.length = D.comps.length + 1 ∧ D'.comps[D.comps.length]? = some y ∧
        step.additional = some D.comps.length ∧ (x'.iet.top ++ y.iet.top).Perm x.iet.top ∧ x'.iet.top ≠ [] ∧ y.iet.top ≠ []) ∧
      (step.result = .nonSeparatingConnection → ∃ conn, D'.comps.length = D.comps.length ∧ step.additional = none ∧
        step.connection = some conn ∧ (conn.target.label :: x'.iet.top).Perm x.iet.top ∧ x'.iet.top ≠ []) ∧
      (step.result ≠ .separatingConnection → step.result ≠ .nonSeparatingConnection → D'.comps.length = D.comps.length ∧
        step.additional = none ∧ step.connection = none ∧ x'.iet.top.Perm x.iet.top) := by
  obtain ⟨x, hx, he, -, hl, -⟩ := h.effect hL H hE hr
  exact he.described (h.inv hL H (ι := AddMonoidHom.id T) (fun _ _ h => h) hE)
    ((h.step fuel limit i hr).inv hL H (ι := AddMonoidHom.id T) (fun _ _ h => h) hE) hx hl

/-- After splitting and merging, the labels of `intIET` are in two components or eliminated. -/
example (L : PPL) (hL : L.Lawful) : ∃ steps D, DReach L (SLengths.ops intArith) Examples.intIET Examples.intState D steps ∧
    D.comps.map (fun x => x.iet.top) = [[2], [3]] ∧ eliminated steps = [1, 0] ∧
    (D.comps.flatMap (fun x => x.iet.top) ++ eliminated steps).Perm [0, 1, 2, 3] := by
  obtain ⟨steps, D, h1, h2, h3⟩ := Examples.int_decomposition L
  refine ⟨steps, D, h1, ?_, ?_, (C35_partition Examples.hInt hL Examples.int_ok h1).2.2⟩
  · have := congrArg (List.map Prod.fst) h3
    rw [List.map_map] at this
    exact this
  · have : eliminated steps = ((steps.map (fun st => (st.result, st.connection))).filter (fun p => p.1 = .nonSeparatingConnection)).filterMap
        (fun p => p.2.map (fun c => c.target.label)) := by
      rw [List.filter_map, List.filterMap_map]
      rfl
    rw [this, h2]
    rfl

/-! ### C36 -/

/-- The components describe the original IET. -/
theorem Decomp.Inv.covers {H : LawfulLengths O c ε} {ι : T →+ P} {D : Decomp σ T} {A₀ : AIET T} {R : List Conn} {au : Bool → Prop}
    (h : D.Inv H ι A₀ R au) : ∃ os : List P, os.length = D.comps.length ∧
      Covers (A₀.map ι) (os.zip (D.comps.map (fun x => (H.abs x.iet D.lengths.inner).map ι))) := by
  obtain ⟨oc, h1, h2⟩ := h.track
  refine ⟨oc.map Prod.fst, by rw [← h1]; simp, ?_⟩
  have e : (oc.map Prod.fst).zip (D.comps.map (fun x => (H.abs x.iet D.lengths.inner).map ι)) = pcs H ι D.lengths.inner oc := by
    rw [← h1, List.map_map, pcs, List.zip_map']
    rfl
  rw [e]
  exact h2.cover

/-- **C36** In every reachable state the components, placed at suitable positions `o`, describe the original IET: each component is the
first return map of the original IET to the interval that starts at `o`, every orbit of the original IET meets one of these
intervals, and no orbit meets two of them (`Covers`).  The points may be from any ordered ring that contains the lengths. -/
theorem C36_covers (H : LawfulLengths O c ε) {L : PPL} (hL : L.Lawful) {E : IET T} {s : σ} (hE : H.Ok E s) {D : Decomp σ T}
    {steps : List DStep} (h : DReach L O E s D steps) {ι : T →+ P} (hι : StrictMono ι) :
    ∃ os : List P, os.length = D.comps.length ∧
      Covers ((H.abs E s).map ι) (os.zip (D.comps.map (fun x => (H.abs x.iet D.lengths.inner).map ι))) :=
  (h.inv hL H hι hE).covers

theorem Decomp.Inv.periodic {H : LawfulLengths O c ε} {ι : T →+ P} {D : Decomp σ T} {A₀ : AIET T} {R : List Conn} {au : Bool → Prop}
    (h : D.Inv H ι A₀ R au) :
    (∃ x, Periodic (A₀.map ι).Maps x) ↔ ∃ y ∈ D.comps, ∃ x, Periodic ((H.abs y.iet D.lengths.inner).map ι).Maps x := by
  obtain ⟨oc, h1, h2⟩ := h.track
  rw [h2.cover.periodic_iff h2.base, ← h1]
  constructor
  · rintro ⟨p, hp, hx⟩
    obtain ⟨q, hq, rfl⟩ := List.mem_map.mp hp
    exact ⟨q.2, List.mem_map_of_mem hq, hx⟩
  · rintro ⟨y, hy, hx⟩
    obtain ⟨q, hq, rfl⟩ := List.mem_map.mp hy
    exact ⟨_, List.mem_map_of_mem hq, hx⟩

/-- **C36** The original IET has a periodic point iff one of the components has one. -/
theorem C36_periodic (H : LawfulLengths O c ε) {L : PPL} (hL : L.Lawful) {E : IET T} {s : σ} (hE : H.Ok E s) {D : Decomp σ T}
    {steps : List DStep} (h : DReach L O E s D steps) {ι : T →+ P} (hι : StrictMono ι) :
    (∃ x, Periodic ((H.abs E s).map ι).Maps x) ↔ ∃ y ∈ D.comps, ∃ x, Periodic ((H.abs y.iet D.lengths.inner).map ι).Maps x :=
  (h.inv hL H hι hE).periodic

/-- There are two components in the decomposition of `intIET`, so every orbit of it meets exactly one of two intervals. -/
example (L : PPL) (hL : L.Lawful) : ∃ pieces : List (ℤ × AIET ℤ), pieces.length = 2 ∧
    Covers ((Examples.hInt.abs Examples.intIET Examples.intState).map (AddMonoidHom.id ℤ)) pieces := by
  obtain ⟨steps, D, h1, h2, h3⟩ := Examples.int_decomposition L
  obtain ⟨os, h4, h5⟩ := C36_covers Examples.hInt hL Examples.int_ok h1 (ι := AddMonoidHom.id ℤ) (fun _ _ h => h)
  have := congrArg List.length h3
  refine ⟨_, ?_, h5⟩
  simp at this ⊢
  omega

/-! ### C37 -/

/-- Cylinders are components of periodic points. -/
theorem Decomp.Inv.cylinder {H : LawfulLengths O c ε} {ι : T →+ P} {D : Decomp σ T} {A₀ : AIET T} {R : List Conn} {au : Bool → Prop}
    (hinv : D.Inv H ι A₀ R au) :
    ∃ os : List P, os.length = D.comps.length ∧
      Covers (A₀.map ι) (os.zip (D.comps.map (fun x => (H.abs x.iet D.lengths.inner).map ι))) ∧
      ∀ (i : ℕ) (o : P) (x : Comp T), os[i]? = some o → D.comps[i]? = some x → x.cylinder = some true →
        x.iet.top.length = 1 ∧ ∃ n, 0 < n ∧ ∀ y, Inside (o, (H.abs x.iet D.lengths.inner).map ι) y →
          Iter (A₀.map ι).Maps n y y ∧ ∀ m, 0 < m → m < n → ¬ Iter (A₀.map ι).Maps m y y := by
  obtain ⟨oc, h1, h2⟩ := hinv.track
  have e : (oc.map Prod.fst).zip (D.comps.map (fun x => (H.abs x.iet D.lengths.inner).map ι)) = pcs H ι D.lengths.inner oc := by
    rw [← h1, List.map_map, pcs, List.zip_map']
    rfl
  refine ⟨oc.map Prod.fst, by rw [← h1]; simp, by rw [e]; exact h2.cover, ?_⟩
  intro i o x ho hx hcyl
  have hlen := (hinv.flags x (List.mem_of_getElem? hx)).cylinder hcyl
  simp only [LawfulLengths.abs] at hlen
  refine ⟨hlen, ?_⟩
  have hp : (o, (H.abs x.iet D.lengths.inner).map ι) ∈ pcs H ι D.lengths.inner oc := by
    rw [← e]
    apply List.mem_of_getElem? (i := i)
    rw [List.getElem?_zip_eq_some]
    exact ⟨ho, by rw [List.getElem?_map, hx]; rfl⟩
  have hv := h2.cover.valid _ hp
  have hcod := h2.coded _ hp
  obtain ⟨a, ha⟩ := List.length_eq_one_iff.mp hlen
  set B : AIET P := (H.abs x.iet D.lengths.inner).map ι with hB
  have htop : B.top = [a] := ha
  have hbot : B.bottom = [a] := by
    have := hv.perm
    simp only [htop] at this
    exact List.perm_singleton.mp this
  obtain ⟨w, hw, hw'⟩ := hcod a (by simp only; rw [htop]; simp)
  -- all points go back to themselves along the same intervals
  have hpath : ∀ y, Inside (o, B) y → (A₀.map ι).Path w y y := by
    rintro y ⟨y1, y2⟩
    have := hw' (y - o) (y - o) ⟨by simp only; rw [htop]; simp, ?_, ?_, ?_⟩
    · simpa using this
    · simp only [htop, off_cons_self]; simp only at y1; linarith
    · simp only [htop, off_cons_self, AIET.total, sumLen] at y2 ⊢; linarith
    · simp only [htop, hbot, off_cons_self]; ring
  have hv0 := h2.base
  have hin : Inside (o, B) o := ⟨le_refl _, by have := hv.total_pos; simp only at this ⊢; linarith⟩
  classical
  have hex : ∃ n, 0 < n ∧ Iter (A₀.map ι).Maps n o o := ⟨w.length, List.length_pos_iff.mpr hw, (hpath o hin).iter⟩
  obtain ⟨g1, g2⟩ := Nat.find_spec hex
  refine ⟨Nat.find hex, g1, fun y hy => ⟨?_, ?_⟩⟩
  · exact iter_iff_of_path hv0 hw (hpath o hin) (hpath y hy) _ g2
  · intro m hm hlt hit
    exact Nat.find_min hex hlt ⟨hm, iter_iff_of_path hv0 hw (hpath y hy) (hpath o hin) _ hit⟩

/-- **C37** If `cylinder()` is true for a component then it has a single interval, and all points of the interval `[o, o + total)` of
which it is the first return map are periodic under the original IET with the same least period `n`. -/
theorem C37_cylinder (H : LawfulLengths O c ε) {L : PPL} (hL : L.Lawful) {E : IET T} {s : σ} (hE : H.Ok E s) {D : Decomp σ T}
    {steps : List DStep} (h : DReach L O E s D steps) {ι : T →+ P} (hι : StrictMono ι) :
    ∃ os : List P, os.length = D.comps.length ∧
      Covers ((H.abs E s).map ι) (os.zip (D.comps.map (fun x => (H.abs x.iet D.lengths.inner).map ι))) ∧
      ∀ (i : ℕ) (o : P) (x : Comp T), os[i]? = some o → D.comps[i]? = some x → x.cylinder = some true →
        x.iet.top.length = 1 ∧ ∃ n, 0 < n ∧ ∀ y, Inside (o, (H.abs x.iet D.lengths.inner).map ι) y →
          Iter ((H.abs E s).map ι).Maps n y y ∧ ∀ m, 0 < m → m < n → ¬ Iter ((H.abs E s).map ι).Maps m y y :=
  (h.inv hL H hι hE).cylinder

/-- All components in the decomposition of `intIET` are cylinders. -/
example (L : PPL) : ∃ steps D, DReach L (SLengths.ops intArith) Examples.intIET Examples.intState D steps ∧
    D.comps.length = 2 ∧ ∀ x ∈ D.comps, x.cylinder = some true := by
  obtain ⟨steps, D, h1, h2, h3⟩ := Examples.int_decomposition L
  refine ⟨steps, D, h1, by simpa using congrArg List.length h3, fun x hx => ?_⟩
  have := List.mem_map_of_mem (f := fun x : Comp ℤ => (x.iet.top, x.iet.bottom, x.cylinder, x.withoutPeriodicTrajectory)) hx
  rw [h3] at this
  simp at this
  rcases this with h | h
  · exact h.2.2.1
  · exact h.2.2.1

theorem Descend.no_periodic {ι : T →+ P} (hι : StrictMono ι) {A B : AIET T} (hA : A.Valid) (h : Descend A B) :
    B.Valid ∧ ((∃ x, Periodic (B.map ι).Maps x) → ∃ x, Periodic (A.map ι).Maps x) := by
  induction h with
  | refl => exact ⟨hA, id⟩
  | agree _ h ih =>
    refine ⟨h.valid ih.1, fun hx => ih.2 ?_⟩
    rw [(h.map (ι := ι)).maps (ih.1.map hι)]
    exact hx
  | steps _ h ih =>
    refine ⟨Steps.valid ih.1 h, fun hx => ih.2 ?_⟩
    obtain ⟨δ, hf⟩ := Steps.fwd (ih.1.map hι) (Steps.map hι h)
    exact hf.periodic_iff.mpr hx
  | cut _ h ih =>
    refine ⟨h.valid_left ih.1, fun hx => ih.2 ?_⟩
    exact (IsCut.periodic_iff (ih.1.map hι) (h.map (ι := ι))).mpr (.inl hx)
  | merge _ h ih =>
    obtain ⟨b, _, hf⟩ := (MergeTop.map (ι := ι) h).fwd (ih.1.map hι)
    obtain ⟨b', _, hf'⟩ := h.fwd ih.1
    exact ⟨hf'.valid', fun hx => ih.2 (hf.periodic_iff.mpr hx)⟩

/-- Unless the similarity tracker has been relied upon, the components without periodic trajectories have none. -/
theorem Decomp.Inv.no_periodic {H : LawfulLengths O c ε} {ι : T →+ P} (hι : StrictMono ι) {D : Decomp σ T} {A₀ : AIET T} {R : List Conn} {au : Bool → Prop}
    (hinv : D.Inv H ι A₀ R au) (hauto : ∀ b, ¬ au b) {x : Comp T} (hx : x ∈ D.comps) (hw : x.withoutPeriodicTrajectory = some true) :
    ¬ ∃ y, Periodic ((H.abs x.iet D.lengths.inner).map ι).Maps y := by
  rintro ⟨y, hy⟩
  obtain ⟨X, g1, g2, g3⟩ := (hinv.flags x hx).periodic hw
  obtain ⟨z, hz⟩ := (g2.no_periodic hι g1).2 ⟨y, hy⟩
  rcases g3 with g3 | ⟨g3 | ⟨g3, _⟩, _⟩
  · exact g3.1 (relation_of_periodic c g1 hι hz)
  · exact hauto _ g3
  · exact hauto _ g3

/-- **C37** (partial) If `withoutPeriodicTrajectory()` is true for a component then it has no periodic points, unless
WITHOUT_PERIODIC_TRAJECTORY_AUTO_SIMILAR has been reported at some point (missing: soundness of the similarity tracker, see C23). -/
theorem C37_withoutPeriodicTrajectory_partial (H : LawfulLengths O c ε) {L : PPL} (hL : L.Lawful) {E : IET T} {s : σ} (hE : H.Ok E s)
    {D : Decomp σ T} {steps : List DStep} (h : DReach L O E s D steps)
    (hauto : ∀ st ∈ steps, st.result ≠ .withoutPeriodicTrajectoryAutoSimilar) {x : Comp T} (hx : x ∈ D.comps)
    (hw : x.withoutPeriodicTrajectory = some true) {ι : T →+ P} (hι : StrictMono ι) :
    ¬ ∃ y, Periodic ((H.abs x.iet D.lengths.inner).map ι).Maps y :=
  (h.inv hL H hι hE).no_periodic hι (by rintro _ ⟨st, h1, h2⟩; exact hauto st h1 h2) hx hw

/-- **C37** `cylinder()` and `withoutPeriodicTrajectory()` are never both true, each of them is false exactly if the other one is
true; `keane()` is never true. -/
theorem C37_exclusive (H : LawfulLengths O c ε) {L : PPL} (hL : L.Lawful) {E : IET T} {s : σ} (hE : H.Ok E s)
    {D : Decomp σ T} {steps : List DStep} (h : DReach L O E s D steps) {x : Comp T} (hx : x ∈ D.comps) :
    (x.cylinder = some false ↔ x.withoutPeriodicTrajectory = some true) ∧
    (x.withoutPeriodicTrajectory = some false ↔ x.cylinder = some true) ∧ x.keane ≠ some true := by
  have := (h.inv hL H (ι := AddMonoidHom.id T) (fun _ _ h => h) hE).flags x hx
  exact ⟨this.not_cylinder, this.not_periodic, this.keane⟩

/-! ### C40 -/

theorem reflTransGen_iter {α : Type} {R : α → α → Prop} {x y : α} (h : Relation.ReflTransGen R x y) : ∃ n, Iter R n x y := by
  induction h using Relation.ReflTransGen.head_induction_on with
  | refl => exact ⟨0, rfl⟩
  | head h1 _ ih =>
    obtain ⟨n, hn⟩ := ih
    exact ⟨n + 1, _, h1, hn⟩

/-- The connections that are recorded are saddle connections. -/
theorem Decomp.Inv.connections {H : LawfulLengths O c ε} {ι : T →+ P} {D : Decomp σ T} {A₀ : AIET T} {R : List Conn} {au : Bool → Prop}
    (h : D.Inv H ι A₀ R au) {conn : Conn} (hm : conn ∈ R) :
    ∃ a ∈ A₀.bottom.dropLast, ∃ b ∈ A₀.top.dropLast, conn = ⟨⟨a, true⟩, ⟨b, false⟩⟩ ∧
      ∃ n, Iter (A₀.map ι).Maps n ((A₀.map ι).rightBottom a) ((A₀.map ι).rightTop b) := by
  obtain ⟨oc, h1, h2⟩ := h.track
  refine ⟨conn.source.label, ?_, conn.target.label, ?_, ?_, reflTransGen_iter (h2.saddles conn hm)⟩
  · exact h2.sources.mem_iff.mp (List.mem_append_right _ (List.mem_map.mpr ⟨conn, hm, rfl⟩))
  · exact h2.targets.mem_iff.mp (List.mem_append_right _ (List.mem_map.mpr ⟨conn, hm, rfl⟩))
  · obtain ⟨g1, g2⟩ := h2.shape conn hm
    obtain ⟨⟨a, p⟩, ⟨b, q⟩⟩ := conn
    simp only at g1 g2 ⊢
    rw [g1, g2]

/-- **C40** For every connection that is reported, the source is a separatrix at the right end point of a bottom interval `a` of
the original IET, the target is one at the right end point of a top interval `b`, neither of them the end point of the entire
interval, and some iterate of the original IET maps the first point to the second. -/
theorem C40_saddle_connections (H : LawfulLengths O c ε) {L : PPL} (hL : L.Lawful) {E : IET T} {s : σ} (hE : H.Ok E s)
    {D : Decomp σ T} {steps : List DStep} (h : DReach L O E s D steps) {st : DStep} (hst : st ∈ steps) {conn : Conn}
    (hconn : st.connection = some conn) {ι : T →+ P} (hι : StrictMono ι) :
    ∃ a ∈ E.bottom.dropLast, ∃ b ∈ E.top.dropLast, conn = ⟨⟨a, true⟩, ⟨b, false⟩⟩ ∧
      ∃ n, Iter ((H.abs E s).map ι).Maps n (((H.abs E s).map ι).rightBottom a) (((H.abs E s).map ι).rightTop b) :=
  (h.inv hL H hι hE).connections (List.mem_filterMap.mpr ⟨st, hst, hconn⟩)

/-- `intIET` maps the right end point 10 of the bottom interval 2 to the right end point 55 of the top interval 1, eventually. -/
example (L : PPL) (hL : L.Lawful) : ∃ n, Iter ((Examples.hInt.abs Examples.intIET Examples.intState).map (AddMonoidHom.id ℤ)).Maps n 10 55 := by
  obtain ⟨steps, D, h1, h2, h3⟩ := Examples.int_decomposition L
  have : ((.nonSeparatingConnection, some ⟨⟨2, true⟩, ⟨1, false⟩⟩) : DResult × Option Conn) ∈ steps.map (fun st => (st.result, st.connection)) := by
    rw [h2]; simp
  obtain ⟨st, hst, e⟩ := List.mem_map.mp this
  injection e with e1 e2
  obtain ⟨a, ha, b, hb, e, n, hn⟩ := C40_saddle_connections Examples.hInt hL Examples.int_ok h1 hst e2 (ι := AddMonoidHom.id ℤ) (fun _ _ h => h)
  cases e
  exact ⟨n, hn⟩

/-! ### C49 -/

/-- **C49** The number of reported connections plus the number of interior end points of all components is the number of
interior end points of the original IET.  So at most `n - 1` connections are reported, and there are at most `n` components. -/
theorem C49_bounded (H : LawfulLengths O c ε) {L : PPL} (hL : L.Lawful) {E : IET T} {s : σ} (hE : H.Ok E s)
    {D : Decomp σ T} {steps : List DStep} (h : DReach L O E s D steps) :
    (D.comps.map (fun x => x.iet.top.length - 1)).sum + (reported steps).length = E.top.length - 1 ∧
    (reported steps).length ≤ E.top.length - 1 ∧ D.comps.length ≤ E.top.length := by
  have hinv := h.inv hL H (ι := AddMonoidHom.id T) (fun _ _ h => h) hE
  obtain ⟨oc, h1, h2⟩ := hinv.track
  have h3 := h2.targets.length_eq
  have h4 : (D.comps.map (fun x => x.iet.top.length - 1)).sum + (reported steps).length = E.top.length - 1 := by
    rw [← h1]
    simpa [pcs, List.length_flatMap, LawfulLengths.abs, AIET.map, Function.comp_def] using h3
  refine ⟨h4, by omega, ?_⟩
  have h5 := (C35_partition H hL hE h).2.2.length_eq
  have h6 : D.comps.length ≤ (D.comps.flatMap (fun x => x.iet.top)).length := by
    rw [List.length_flatMap]
    have : ∀ l : List (Comp T), (∀ x ∈ l, x.iet.top ≠ []) → l.length ≤ (l.map (fun x => x.iet.top.length)).sum := by
      intro l
      induction l with
      | nil => simp
      | cons x l ih =>
        simp only [List.forall_mem_cons, List.length_cons, List.map_cons, List.sum_cons]
        rintro ⟨hx, hl⟩
        have := ih hl
        have := List.length_pos_iff.mpr hx
        omega
    exact this _ (fun x hx => (hinv.good x hx).ok.valid.ne_nil)
  simp only [List.length_append] at h5
  omega

/-- Both bounds are attained, up to one component: three connections of `intIET`, which has four intervals. -/
example (L : PPL) : ∃ steps D, DReach L (SLengths.ops intArith) Examples.intIET Examples.intState D steps ∧
    (reported steps).length = Examples.intIET.top.length - 1 := by
  obtain ⟨steps, D, h1, h2, h3⟩ := Examples.int_decomposition L
  refine ⟨steps, D, h1, ?_⟩
  have : reported steps = (steps.map (fun st => (st.result, st.connection))).filterMap Prod.snd := by
    rw [List.filterMap_map]; rfl
  rw [this, h2]
  rfl

end Verif
