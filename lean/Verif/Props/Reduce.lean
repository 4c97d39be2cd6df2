import Verif.Examples

/-!
# C07, C08, C09: `reduce()`
-/

namespace Verif

set_option linter.unusedSectionVars false

variable {σ T ε P : Type} [CommRing T] [LinearOrder T] [IsStrictOrderedRing T] [CommRing P] [LinearOrder P]
  [IsStrictOrderedRing P] {O : LengthsOps σ T} {d : ℕ} {c : T →+ (Fin d → ℚ)}

/-! ### C08 -/

/-- **C08** `reduce()` returns an IET if and only if a proper prefix of top has the same labels as the prefix of bottom of the
same size.  Otherwise nothing changes. -/
theorem C08_reduce_iff (H : LawfulLengths O c ε) {E : IET T} {s : σ} (h : H.Ok E s) :
    ∃ R E', E.reduce O s = .ok (R, E') ∧ (R = none → E' = E) ∧
      (R.isSome ↔ ∃ k, 0 < k ∧ k < E.top.length ∧ (E.top.take k).Perm (E.bottom.take k)) := by
  rcases reduce_spec H E s h with ⟨h1, h2⟩ | ⟨k, h1, h2⟩
  · refine ⟨_, _, h1, fun _ => rfl, ?_⟩
    simp only [Option.isSome_none, Bool.false_eq_true, false_iff, not_exists]
    rintro k ⟨k1, k2, k3⟩
    exact h2 k k1 k2 k3
  · refine ⟨_, _, h1, by simp, ?_⟩
    simp only [Option.isSome_some, true_iff]
    exact ⟨k, h2.pos, h2.lt, h2.perm.symm⟩

/-- **C08** When `reduce()` splits, the two pieces concatenate to the original, they have no labels in common and the same
labels on top and bottom, and the first piece cannot be reduced any further (so the cut is at the shortest possible prefix).
No length is altered (`reduce()` does not touch the lengths at all in the model, its type shows this). -/
theorem C08_reduce_split (H : LawfulLengths O c ε) {E E' R : IET T} {s : σ} (h : H.Ok E s)
    (hr : E.reduce O s = .ok (some R, E')) :
    E.top = E'.top ++ R.top ∧ E.bottom = E'.bottom ++ R.bottom ∧ E'.top ≠ [] ∧ R.top ≠ [] ∧
      E'.bottom.Perm E'.top ∧ R.bottom.Perm R.top ∧ (∀ a ∈ E'.top, a ∉ R.top) ∧
      (∀ k, 0 < k → k < E'.top.length → ¬ (E'.top.take k).Perm (E'.bottom.take k)) ∧
      E'.swapped = E.swapped ∧ R.swapped = false := by
  rcases reduce_spec H E s h with ⟨h1, h2⟩ | ⟨k, h1, h2⟩
  · rw [h1] at hr; cases hr
  · rw [h1] at hr; cases hr
    have hv := h.valid
    have hl := h2.valid_left hv
    have hr := h2.valid_right hv
    obtain ⟨f1, f2, f3, f4, f5, f6, f7⟩ := h2.facts hv
    refine ⟨f1, f2, hl.ne_nil, hr.ne_nil, hl.perm, hr.perm, f5, ?_, rfl, rfl⟩
    intro j j0 j1
    simp only [List.length_take] at j1
    have h3 := h2.minimal j j0 (by omega)
    have e1 : (E.top.take k).take j = E.top.take j := by rw [List.take_take]; congr 1; omega
    have e2 : (E.bottom.take k).take j = E.bottom.take j := by rw [List.take_take]; congr 1; omega
    show ¬ ((E.top.take k).take j).Perm ((E.bottom.take k).take j)
    rw [e1, e2]
    exact h3

example : (Examples.redIET.reduce (SLengths.ops Examples.q2Arith) Examples.redState).toOption.map
    (fun r => (r.1.map (fun R => (R.top, R.bottom)), r.2.top, r.2.bottom)) =
    some (some ([2, 3, 4], [4, 3, 2]), [0, 1], [1, 0]) := by decide

example : ∃ R E', Examples.redIET.reduce (SLengths.ops Examples.q2Arith) Examples.redState = .ok (R, E') ∧ (R = none → E' = Examples.redIET) ∧
      (R.isSome ↔ ∃ k, 0 < k ∧ k < 5 ∧ ([0, 1, 2, 3, 4].take k).Perm ([1, 0, 4, 3, 2].take k)) :=
  C08_reduce_iff Examples.hQ2 Examples.red_ok

/-! ### C07 -/

/-- **C07** The SAF invariant reported by an IET is the sum of the SAF invariants reported by the pieces after a reduction,
no matter what has been cached before. -/
theorem C07_saf_additive (H : LawfulLengths O c ε) {L : PPL} (hL : L.Lawful) {w : World σ T} (h : Reachable H L w)
    {E E' R F F' F'' : IET T} {v v' v'' : List ℚ} (hE : E ∈ w.pieces) (hr : E.reduce O w.lengths = .ok (some R, E'))
    (hv : E.safInvariant O w.lengths = .ok (v, F)) (hv' : E'.safInvariant O w.lengths = .ok (v', F'))
    (hv'' : R.safInvariant O w.lengths = .ok (v'', F'')) :
    v = List.zipWith (fun x y => x + y) v' v'' := by
  have hg := h.good hL hE
  rcases reduce_spec H E w.lengths hg.ok with ⟨h1, h2⟩ | ⟨k, h1, h2⟩
  · rw [h1] at hr; cases hr
  · have hval := hg.ok.valid
    rw [h1] at hr
    cases hr
    have hl := h2.valid_left hval
    have hr := h2.valid_right hval
    have g1 : H.Ok ({ E with top := E.top.take k, bottom := E.bottom.take k, safCache := none } : IET T) w.lengths :=
      ⟨hg.ok.inv, hg.ok.stack, fun a ha => hg.ok.dom a (List.mem_of_mem_take ha), hl, hg.ok.nonneg⟩
    have g2 : H.Ok (IET.fresh (E.top.drop k) (E.bottom.drop k) : IET T) w.lengths :=
      ⟨hg.ok.inv, hg.ok.stack, fun a ha => hg.ok.dom a (List.mem_of_mem_drop ha), hr, hg.ok.nonneg⟩
    rw [safInvariant_spec H hg.ok hg.cache] at hv
    rw [safInvariant_spec H g1 (.none rfl)] at hv'
    rw [safInvariant_spec H g2 (.none rfl)] at hv''
    cases hv
    cases hv'
    cases hv''
    unfold safList
    split
    · rfl
    · rw [List.zipWith_map]
      have e : ∀ l : List (ℕ × ℕ), l.map (fun p => (H.abs E w.lengths).saf (coefAt c p.1) (coefAt c p.2)) =
          List.zipWith (fun x y => (H.abs { E with top := E.top.take k, bottom := E.bottom.take k, safCache := none } w.lengths).saf
            (coefAt c x.1) (coefAt c x.2) + (H.abs (IET.fresh (E.top.drop k) (E.bottom.drop k)) w.lengths).saf
            (coefAt c y.1) (coefAt c y.2)) l l := by
        intro l
        induction l with
        | nil => rfl
        | cons p l ih =>
          simp only [List.map_cons, List.zipWith_cons_cons]
          rw [ih]
          congr 1
          exact h2.saf_eq _ _ hval
      exact e _

/-- The invariants in the example, none of the three vanishes. -/
example : (do
    let (v, E) ← Examples.redIET.safInvariant (SLengths.ops Examples.q2Arith) Examples.redState
    let (R, E) ← E.reduce (SLengths.ops Examples.q2Arith) Examples.redState
    let (v', _) ← E.safInvariant (SLengths.ops Examples.q2Arith) Examples.redState
    let (v'', _) ← (R.getD E).safInvariant (SLengths.ops Examples.q2Arith) Examples.redState
    return (v, v', v'') : M _).toOption = some ([24], [2], [22]) := by decide +kernel

/-! ### C09 -/

/-- **C09** When `reduce()` splits at the cut `c`, the first piece is the restriction to `[0, c)` and the second piece is the
restriction to `[c, total)` translated by `-c`; no orbit crosses the cut. -/
theorem C09_reduce_dynamics (H : LawfulLengths O c ε) {E E' R : IET T} {s : σ} (h : H.Ok E s)
    (hr : E.reduce O s = .ok (some R, E')) {ι : T →+ P} (hι : StrictMono ι) :
    ∃ cut : P, cut = ((H.abs E' s).map ι).total ∧ 0 < cut ∧ cut < ((H.abs E s).map ι).total ∧
      ((H.abs R s).map ι).total = ((H.abs E s).map ι).total - cut ∧
      (∀ x y, x < cut → (((H.abs E s).map ι).Maps x y ↔ ((H.abs E' s).map ι).Maps x y)) ∧
      (∀ x y, 0 ≤ x → (((H.abs E s).map ι).Maps (x + cut) (y + cut) ↔ ((H.abs R s).map ι).Maps x y)) ∧
      (∀ x y, Relation.TransGen ((H.abs E s).map ι).Maps x y → (x < cut ↔ y < cut)) := by
  rcases reduce_spec H E s h with ⟨h1, h2⟩ | ⟨k, h1, h2⟩
  · rw [h1] at hr; cases hr
  · rw [h1] at hr; cases hr
    have hcut := h2.map (ι := ι)
    have hv := h.valid.map hι
    have hl := hcut.valid_left hv
    have hrv := hcut.valid_right hv
    have ht := hcut.total_eq hv
    refine ⟨_, rfl, hl.total_pos, ?_, ?_, fun x y hx => hcut.maps_left hv hx, fun x y hx => hcut.maps_right hv hx, ?_⟩
    · have : 0 < ((H.abs (IET.fresh (E.top.drop k) (E.bottom.drop k)) s).map ι).total := hrv.total_pos
      have ht' : ((H.abs E s).map ι).total =
        ((H.abs { E with top := E.top.take k, bottom := E.bottom.take k, safCache := none } s).map ι).total +
        ((H.abs (IET.fresh (E.top.drop k) (E.bottom.drop k)) s).map ι).total := ht
      linarith
    · have ht' : ((H.abs E s).map ι).total =
        ((H.abs { E with top := E.top.take k, bottom := E.bottom.take k, safCache := none } s).map ι).total +
        ((H.abs (IET.fresh (E.top.drop k) (E.bottom.drop k)) s).map ι).total := ht
      linarith
    · have one : ∀ x y, ((H.abs E s).map ι).Maps x y → (x < (AIET.map ι ⟨E.top.take k, E.bottom.take k, H.len s⟩).total ↔
          y < (AIET.map ι ⟨E.top.take k, E.bottom.take k, H.len s⟩).total) := by
        intro x y hm
        constructor
        · intro hx
          exact (hl.maps_range ((hcut.maps_left hv hx).mp hm)).2
        · intro hy
          by_contra hx
          push Not at hx
          have hm' : ((H.abs E s).map ι).Maps ((x - (AIET.map ι ⟨E.top.take k, E.bottom.take k, H.len s⟩).total) +
              (AIET.map ι ⟨E.top.take k, E.bottom.take k, H.len s⟩).total)
              ((y - (AIET.map ι ⟨E.top.take k, E.bottom.take k, H.len s⟩).total) +
              (AIET.map ι ⟨E.top.take k, E.bottom.take k, H.len s⟩).total) := by simpa using hm
          have := (hrv.maps_range ((hcut.maps_right hv (by linarith)).mp hm')).1
          linarith
      intro x y hm
      induction hm with
      | single h => exact one _ _ h
      | tail _ h ih => rw [ih]; exact one _ _ h

example : ∃ E' R, Examples.redIET.reduce (SLengths.ops Examples.q2Arith) Examples.redState = .ok (some R, E') := by
  obtain ⟨R, E', h1, _, h3⟩ := C08_reduce_iff Examples.hQ2 Examples.red_ok
  have : R.isSome := h3.mpr ⟨2, by decide⟩
  obtain ⟨R', rfl⟩ := Option.isSome_iff_exists.mp this
  exact ⟨E', R', h1⟩

end Verif
