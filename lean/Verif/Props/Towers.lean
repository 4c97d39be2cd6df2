import Verif.Props.Decomposition

/-!
# C58, C59: the SAF invariant of a decomposition and the itineraries of its components
-/

namespace Verif

set_option linter.unusedSectionVars false

variable {σ T ε P : Type} [CommRing T] [LinearOrder T] [IsStrictOrderedRing T] [CommRing P] [LinearOrder P] [IsStrictOrderedRing P]
  {O : LengthsOps σ T} {d : ℕ} {c : T →+ (Fin d → ℚ)}

/-! ### C58 -/

theorem DReach.saf {L : PPL} (hL : L.Lawful) (H : LawfulLengths O c ε) {E : IET T} {s : σ} (hE : H.Ok E s) {D : Decomp σ T}
    {steps : List DStep} (h : DReach L O E s D steps) (φ ψ : T →+ ℚ) :
    (H.abs E s).saf φ ψ = (D.comps.map (fun x => (H.abs x.iet D.lengths.inner).saf φ ψ)).sum := by
  obtain ⟨oc, h1, h2⟩ := (h.inv hL H (ι := AddMonoidHom.id T) (fun _ _ h => h) hE).track
  have := h2.saf φ ψ
  rw [AIET.map_id] at this
  rw [this, ← h1, pcs, List.map_map, List.map_map]
  rfl

/-- **C58** In every reachable state of a decomposition, `safInvariant()` of the IET that is being decomposed is the sum of the
`safInvariant()` of the components. -/
theorem C58_sum (H : LawfulLengths O c ε) {L : PPL} (hL : L.Lawful) {w : World σ T} (h : Reachable H L w) {E F : IET T} (hE : E ∈ w.pieces)
    {v : List ℚ} (hv : E.safInvariant O w.lengths = .ok (v, F)) {D : Decomp σ T} {steps : List DStep} (hD : DReach L O E w.lengths D steps) :
    ∃ vs : List (List ℚ), List.Forall₂ (fun x u => ∃ F, x.iet.safInvariant (LWC.ops O) D.lengths = .ok (u, F) ∧ u.length = v.length) D.comps vs ∧
      ∀ k, v.getD k 0 = (vs.map (fun u => u.getD k 0)).sum := by
  have hg := h.good hL hE
  have hinv := hD.inv hL H (ι := AddMonoidHom.id T) (fun _ _ h => h) hg.ok
  rw [safInvariant_spec H hg.ok hg.cache] at hv
  cases hv
  refine ⟨D.comps.map (fun x => safList c (H.abs x.iet D.lengths.inner)), ?_, ?_⟩
  · rw [List.forall₂_map_right_iff, List.forall₂_same]
    intro x hx
    have hgx := hinv.good x hx
    refine ⟨_, safInvariant_spec (LWC.lawful H) hgx.ok hgx.cache, ?_⟩
    unfold safList
    split <;> simp
  · intro k
    rw [List.map_map]
    unfold safList
    by_cases hd : d ≤ 1
    · simp [hd, Function.comp_def]
    · simp only [hd, if_false, Function.comp_def]
      cases hk : (IET.pairs d)[k]? with
      | none => simp [List.getD_eq_getElem?_getD, hk]
      | some p =>
        simp only [List.getD_eq_getElem?_getD, List.getElem?_map, hk, Option.map_some, Option.getD_some]
        exact hD.saf hL H hg.ok _ _

/-- **C58** If all components are cylinders then `safInvariant()` of the IET that is being decomposed is zero.  (So with a non-zero SAF
invariant, there is always a component that is not a cylinder.) -/
theorem C58_cylinders (H : LawfulLengths O c ε) {L : PPL} (hL : L.Lawful) {w : World σ T} (h : Reachable H L w) {E F : IET T}
    (hE : E ∈ w.pieces) {v : List ℚ} (hv : E.safInvariant O w.lengths = .ok (v, F)) {D : Decomp σ T} {steps : List DStep}
    (hD : DReach L O E w.lengths D steps) (hcyl : ∀ x ∈ D.comps, x.cylinder = some true) : ∀ q ∈ v, q = 0 := by
  have hg := h.good hL hE
  have hinv := hD.inv hL H (ι := AddMonoidHom.id T) (fun _ _ h => h) hg.ok
  rw [safInvariant_spec H hg.ok hg.cache] at hv
  cases hv
  intro q hq
  unfold safList at hq
  split at hq
  · simp at hq
  · obtain ⟨p, -, rfl⟩ := List.mem_map.mp hq
    rw [hD.saf hL H hg.ok]
    apply List.sum_eq_zero
    intro y hy
    obtain ⟨x, hx, rfl⟩ := List.mem_map.mp hy
    have hlen := (hinv.flags x hx).cylinder (hcyl x hx)
    obtain ⟨a, ha⟩ := List.length_eq_one_iff.mp hlen
    have hval := (hinv.good x hx).ok.valid
    have hp := hval.perm
    change (H.abs x.iet D.lengths.inner).bottom.Perm (H.abs x.iet D.lengths.inner).top at hp
    rw [ha] at hp
    have hb := List.perm_singleton.mp hp
    simp [AIET.saf, ha, AIET.transl, hb]

/-- A decomposition of a reducible IET after the first step: the SAF invariant is 24 = 2 + 22. -/
example : ∃ steps D, DReach PPL.ideal (SLengths.ops Examples.q2Arith) Examples.redIET Examples.redState D steps ∧
    (Examples.redIET.safInvariant (SLengths.ops Examples.q2Arith) Examples.redState).map Prod.fst = .ok [24] ∧
    D.comps.map (fun x => (x.iet.safInvariant (LWC.ops (SLengths.ops Examples.q2Arith)) D.lengths).map Prod.fst) = [.ok [2], .ok [22]] := by
  have h : ((Decomp.runFrom PPL.ideal (SLengths.ops Examples.q2Arith) Examples.redIET Examples.redState 20 [(0, 0)]).map (fun r =>
      r.2.comps.map (fun x => (x.iet.safInvariant (LWC.ops (SLengths.ops Examples.q2Arith)) r.2.lengths).map Prod.fst))) =
      .ok [.ok [2], .ok [22]] := by decide +kernel
  cases hr : Decomp.runFrom PPL.ideal (SLengths.ops Examples.q2Arith) Examples.redIET Examples.redState 20 [(0, 0)] with
  | error e => rw [hr] at h; cases h
  | ok r =>
    rw [hr] at h
    obtain ⟨steps, D⟩ := r
    refine ⟨steps, D, .runFrom hr, by decide +kernel, ?_⟩
    simpa [Except.map] using h

example : Reachable Examples.hQ2 PPL.ideal ⟨[Examples.redIET], Examples.redState⟩ := Examples.sample_reachable _ _ Examples.red_ok

/-! ### C59 -/

/-- **C59** In every reachable state, every interval `a` of every component has an itinerary `w a`: all the points of the interval visit
these intervals of the original IET, in this order, until they return to the component for the first time.  The towers over the intervals
of the components fill the original IET: the length of an interval `b` is the sum of the lengths of the intervals `a` of the
components, counted as often as `b` shows up in `w a` (`Towers`). -/
theorem C59_towers (H : LawfulLengths O c ε) {L : PPL} (hL : L.Lawful) {E : IET T} {s : σ} (hE : H.Ok E s) {D : Decomp σ T}
    {steps : List DStep} (h : DReach L O E s D steps) {ι : T →+ P} (hι : StrictMono ι) :
    ∃ (os : List P) (w : Label → List Label), os.length = D.comps.length ∧
      Covers ((H.abs E s).map ι) (os.zip (D.comps.map (fun x => (H.abs x.iet D.lengths.inner).map ι))) ∧
      Towers ((H.abs E s).map ι) (os.zip (D.comps.map (fun x => (H.abs x.iet D.lengths.inner).map ι))) w := by
  obtain ⟨oc, h1, h2⟩ := (h.inv hL H hι hE).track
  obtain ⟨w, hw⟩ := h2.towers
  have e : (oc.map Prod.fst).zip (D.comps.map (fun x => (H.abs x.iet D.lengths.inner).map ι)) = pcs H ι D.lengths.inner oc := by
    rw [← h1, List.map_map, pcs, List.zip_map']
    rfl
  refine ⟨oc.map Prod.fst, w, by rw [← h1]; simp, ?_, ?_⟩ <;> rw [e]
  · exact h2.cover
  · exact hw

theorem AIET.Excursion.not_iter {A : AIET P} (hA : A.Valid) {S : P → Prop} : ∀ {w : List Label} {x y : P}, A.Excursion S w x y →
    ∀ {m : ℕ} {z : P}, 0 < m → m < w.length → Iter A.Maps m x z → ¬ S z
  | [_], _, _, _, m, _, h0, h1, _ => by simp at h1; omega
  | a :: b :: w, x, y, ⟨z', g1, g2, g3⟩, m, z, h0, h1, hit => by
    obtain ⟨n, rfl⟩ : ∃ n, m = n + 1 := ⟨m - 1, by omega⟩
    obtain ⟨z'', k1, k2⟩ := hit
    have := hA.maps_fun _ _ _ k1 (AIET.maps_iff_mapsBy.mpr ⟨a, g1⟩)
    subst this
    rcases Nat.eq_zero_or_pos n with rfl | hn
    · cases k2; exact g2
    · exact AIET.Excursion.not_iter hA (w := b :: w) g3 hn (by simpa using h1) k2

theorem sumLen_swap {α : Type} (f : Label → α → P) (pieces : List α) (l : List Label) :
    sumLen (fun b => (pieces.map (fun p => f b p)).sum) l = (pieces.map (fun p => sumLen (fun b => f b p) l)).sum := by
  induction l with
  | nil => simp
  | cons b l ih => simp only [sumLen_cons, ih]; rw [← sum_map_add']

theorem sumLen_comm (f : Label → Label → P) (l l' : List Label) :
    sumLen (fun b => sumLen (fun a => f b a) l') l = sumLen (fun a => sumLen (fun b => f b a) l) l' := by
  induction l with
  | nil => simp [sumLen_zero]
  | cons b l ih => simp only [sumLen_cons, ih, sumLen_add]

/-- The total length of an IET is the total area of the towers. -/
theorem Towers.area {A : AIET P} (hA : A.Valid) {pieces : List (P × AIET P)} {w : Label → List Label} (hv : ∀ p ∈ pieces, p.2.Valid)
    (h : Towers A pieces w) :
    A.total = (pieces.map (fun p => sumLen (fun a => (((w a).length : ℕ) : P) * p.2.len a) p.2.top)).sum := by
  rw [AIET.total, sumLen_congr h.heights, sumLen_swap (α := P × AIET P) (fun b p => sumLen (fun a => (((w a).count b : ℕ) : P) * p.2.len a) p.2.top)]
  congr 1
  refine List.map_congr_left (fun p hp => ?_)
  rw [sumLen_comm]
  refine sumLen_congr (fun a ha => ?_)
  obtain ⟨x, y, hxy⟩ := (hv p hp).exists_mapsBy ha
  have := sumLen_count (fun _ => (1 : P)) hA.nodup (w a) (h.excursion p hp a ha x y hxy).path.mem
  simp only [one_mul, List.map_const', List.sum_replicate, nsmul_eq_mul, mul_one] at this
  rw [← this, mul_comm, ← sumLen_mul_left]
  exact sumLen_congr (fun b _ => mul_comm _ _)

/-- **C59** If all components are cylinders then the total length of the original IET is the sum of the widths of the cylinders multiplied
with their periods: there are `(o, n)` for every component such that all the points in the interval of the length of the component that
starts at `o` are periodic under the original IET with least period `n`, and these products sum up to the total length. -/
theorem C59_area (H : LawfulLengths O c ε) {L : PPL} (hL : L.Lawful) {E : IET T} {s : σ} (hE : H.Ok E s) {D : Decomp σ T}
    {steps : List DStep} (h : DReach L O E s D steps) (hcyl : ∀ x ∈ D.comps, x.cylinder = some true) {ι : T →+ P} (hι : StrictMono ι) :
    ∃ ons : List (P × ℕ), List.Forall₂ (fun x on => 0 < on.2 ∧ ∀ y, Inside (on.1, (H.abs x.iet D.lengths.inner).map ι) y →
          Iter ((H.abs E s).map ι).Maps on.2 y y ∧ ∀ m, 0 < m → m < on.2 → ¬ Iter ((H.abs E s).map ι).Maps m y y) D.comps ons ∧
      ((H.abs E s).map ι).total =
        (List.zipWith (fun x on => (on.2 : P) * ((H.abs x.iet D.lengths.inner).map ι).total) D.comps ons).sum := by
  have hinv := h.inv hL H hι hE
  obtain ⟨oc, h1, h2⟩ := hinv.track
  obtain ⟨w, hw⟩ := h2.towers
  have key : ∀ q ∈ oc, ∃ a, (H.abs q.2.iet D.lengths.inner).top = [a] ∧ (H.abs q.2.iet D.lengths.inner).bottom = [a] := by
    intro q hq
    have hx : q.2 ∈ D.comps := by rw [← h1]; exact List.mem_map_of_mem hq
    obtain ⟨a, ha⟩ := List.length_eq_one_iff.mp ((hinv.flags q.2 hx).cylinder (hcyl _ hx))
    have hp := (hinv.good q.2 hx).ok.valid.perm
    change (H.abs q.2.iet D.lengths.inner).bottom.Perm (H.abs q.2.iet D.lengths.inner).top at hp
    rw [ha] at hp
    exact ⟨a, ha, List.perm_singleton.mp hp⟩
  refine ⟨oc.map (fun q => (q.1, (w (q.2.iet.top.headD 0)).length)), ?_, ?_⟩
  · rw [← h1, List.forall₂_map_left_iff, List.forall₂_map_right_iff, List.forall₂_same]
    intro q hq
    obtain ⟨a, ha, hb⟩ := key q hq
    have hp : (q.1, (H.abs q.2.iet D.lengths.inner).map ι) ∈ pcs H ι D.lengths.inner oc := List.mem_map_of_mem hq
    have hv := h2.cover.valid _ hp
    have ha' : q.2.iet.top = [a] := ha
    simp only [ha', List.headD_cons]
    set B : AIET P := (H.abs q.2.iet D.lengths.inner).map ι with hB
    have htop : B.top = [a] := ha
    have hbot : B.bottom = [a] := hb
    have hmaps : ∀ y, Inside (q.1, B) y → ((H.abs E s).map ι).Excursion (Inside (q.1, B)) (w a) y y := by
      rintro y ⟨y1, y2⟩
      have := hw.excursion _ hp a (by simp only; rw [htop]; simp) (y - q.1) (y - q.1) ⟨by simp only; rw [htop]; simp, ?_, ?_, ?_⟩
      · simpa using this
      · simp only [htop, off_cons_self]; simp only at y1; linarith
      · simp only [htop, off_cons_self, AIET.total, sumLen] at y2 ⊢; linarith
      · simp only [htop, hbot, off_cons_self]; ring
    have hin : Inside (q.1, B) q.1 := ⟨le_refl _, by have := hv.total_pos; simp only at this ⊢; linarith⟩
    refine ⟨List.length_pos_iff.mpr (hmaps _ hin).ne_nil, fun y hy => ⟨(hmaps y hy).path.iter, ?_⟩⟩
    intro m hm hlt hit
    exact (hmaps y hy).not_iter h2.base hm hlt hit hy
  · rw [hw.area h2.base h2.cover.valid, ← h1, List.zipWith_map, List.zipWith_self, pcs, List.map_map]
    congr 1
    refine List.map_congr_left (fun q hq => ?_)
    obtain ⟨a, ha, hb⟩ := key q hq
    have ha' : q.2.iet.top = [a] := ha
    have htop : ((H.abs q.2.iet D.lengths.inner).map ι).top = [a] := ha
    simp only [Function.comp_def, AIET.total, htop, sumLen_cons, sumLen_nil, add_zero, ha', List.headD_cons]

/-- The decomposition of `intIET` consists of two cylinders, so its length 65 is a sum of two such products. -/
example (L : PPL) (hL : L.Lawful) : ∃ (x y : Comp ℤ) (D : Decomp (SLengths ℤ) ℤ) (n m : ℕ), 0 < n ∧ 0 < m ∧ D.comps = [x, y] ∧
    65 = (n : ℤ) * (Examples.hInt.abs x.iet D.lengths.inner).total + m * (Examples.hInt.abs y.iet D.lengths.inner).total := by
  obtain ⟨steps, D, h1, h2, h3⟩ := Examples.int_decomposition L
  have hc : ∀ x ∈ D.comps, x.cylinder = some true := by
    intro x hx
    have := List.mem_map_of_mem (f := fun x : Comp ℤ => (x.iet.top, x.iet.bottom, x.cylinder, x.withoutPeriodicTrajectory)) hx
    rw [h3] at this
    simp at this
    rcases this with h | h
    · exact h.2.2.1
    · exact h.2.2.1
  obtain ⟨ons, h4, h5⟩ := C59_area Examples.hInt hL Examples.int_ok h1 hc (ι := AddMonoidHom.id ℤ) (fun _ _ h => h)
  have hl : D.comps.length = 2 := by simpa using congrArg List.length h3
  obtain ⟨x, y, hxy⟩ := List.length_eq_two.mp hl
  rw [hxy] at h4 h5
  match ons, h4, h5 with
  | [(o, n), (o', m)], .cons g1 (.cons g2 .nil), h5 =>
    refine ⟨x, y, D, n, m, g1.1, g2.1, hxy, ?_⟩
    simp only [List.zipWith_cons_cons, List.zipWith_nil_left, List.sum_cons, List.sum_nil, add_zero, AIET.map_id] at h5
    exact h5

end Verif
