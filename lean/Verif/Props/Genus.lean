import Verif.Proofs.Genus
import Verif.Props.Unique
import Verif.Props.Minimal
import Verif.Props.Instances

/-!
# C91: the genus and the number of minimal components

How far the intervals are translated depends on the lengths through an alternating matrix.  Half of its rank is the genus of the translation surfaces of which an IET
is a first return map.  It does not change unless a non-separating connection is removed and it bounds how many components have dense orbits.
-/

namespace Verif

set_option linter.unusedSectionVars false

variable {σ T P ε : Type} [CommRing T] [LinearOrder T] [IsStrictOrderedRing T] [CommRing P] [LinearOrder P] [IsStrictOrderedRing P]
  {O : LengthsOps σ T} {d : ℕ} {c : T →+ (Fin d → ℚ)}

/-- How `x` and `y` cross: 1 if `y` only comes before `x` in the bottom, -1 if `y` only comes before `x` in the top. -/
def IET.crossing (E : IET T) (x y : Label) : ℤ :=
  (if E.bottom.idxOf y < E.bottom.idxOf x then 1 else 0) - (if E.top.idxOf y < E.top.idxOf x then 1 else 0)

/-- Half of the rank of the matrix of crossings. -/
noncomputable def IET.genus (E : IET T) : ℕ := (Matrix.of (fun x y : E.top.toFinset => (E.crossing x y : ℚ))).rank / 2

theorem off_sum (len : Label → T) {l : List Label} (hn : l.Nodup) {x : Label} (hx : x ∈ l) :
    off len l x = (l.map (fun y => ((if l.idxOf y < l.idxOf x then 1 else 0 : ℤ) : T) * len y)).sum := by
  induction l with
  | nil => simp at hx
  | cons b l ih =>
    rw [List.nodup_cons] at hn
    unfold off
    by_cases e : b = x
    · subst e
      rw [if_pos rfl, eq_comm]
      apply List.sum_eq_zero
      intro v hv
      obtain ⟨y, -, rfl⟩ := List.mem_map.mp hv
      simp
    · have hx' : x ∈ l := (List.mem_cons.mp hx).resolve_left (Ne.symm e)
      rw [if_neg e, ih hn.2 hx', List.map_cons, List.sum_cons]
      congr 1
      · rw [List.idxOf_cons_self, List.idxOf_cons_ne _ e]; simp
      · congr 1
        refine List.map_congr_left (fun y hy => ?_)
        have hy' : b ≠ y := fun h => hn.1 (h ▸ hy)
        rw [List.idxOf_cons_ne _ e, List.idxOf_cons_ne _ hy']
        simp

theorem sum_map_difference {α : Type} (f g : α → T) (l : List α) : (l.map (fun y => f y - g y)).sum = (l.map f).sum - (l.map g).sum := by
  induction l with
  | nil => simp
  | cons a l ih => simp only [List.map_cons, List.sum_cons, ih]; ring

theorem IET.rank_eq (H : LawfulLengths O c ε) {E : IET T} {s : σ} (h : (H.abs E s).Valid) : (H.abs E s).rank = 2 * E.genus := by
  have e : E.genus = (H.abs E s).rank / 2 := by
    unfold IET.genus AIET.rank crossRank
    congr 2
    ext x y
    show ((E.crossing x y : ℤ) : ℚ) = cross E.top E.bottom x y
    unfold IET.crossing cross precedes
    push_cast
    rfl
  obtain ⟨k, hk⟩ := AIET.rank_even h
  omega

/-- **C91** The meaning of the crossings: a point in the interval `x` is translated by the sum of the lengths of the intervals that cross `x`. -/
theorem C91_translation (H : LawfulLengths O c ε) {E : IET T} {s : σ} (h : H.Ok E s) {x : Label} {p q : T} (hm : (H.abs E s).MapsBy x p q) :
    q = p + (E.top.map (fun y => (E.crossing x y : T) * H.len s y)).sum := by
  obtain ⟨hx, -, -, rfl⟩ := hm
  have hv := h.valid
  have h1 := off_sum (H.abs E s).len hv.nodup hx
  have h2 := off_sum (H.abs E s).len hv.nodup_bottom (hv.perm.mem_iff.mpr hx)
  have h3 := (hv.perm.map (fun y => ((if (H.abs E s).bottom.idxOf y < (H.abs E s).bottom.idxOf x then 1 else 0 : ℤ) : T) * (H.abs E s).len y)).sum_eq
  rw [h1, h2, h3]
  have h4 : (E.top.map (fun y => (E.crossing x y : T) * H.len s y)).sum =
      (E.top.map (fun y => ((if E.bottom.idxOf y < E.bottom.idxOf x then 1 else 0 : ℤ) : T) * H.len s y)).sum -
      (E.top.map (fun y => ((if E.top.idxOf y < E.top.idxOf x then 1 else 0 : ℤ) : T) * H.len s y)).sum := by
    rw [← sum_map_difference]
    congr 1
    refine List.map_congr_left (fun y _ => ?_)
    unfold IET.crossing
    push_cast
    ring
  rw [h4]
  show p - (E.top.map _).sum + (E.top.map _).sum = p + _
  show p - (E.top.map (fun y => ((if E.top.idxOf y < E.top.idxOf x then 1 else 0 : ℤ) : T) * H.len s y)).sum +
    (E.top.map (fun y => ((if E.bottom.idxOf y < E.bottom.idxOf x then 1 else 0 : ℤ) : T) * H.len s y)).sum = _
  ring

/-- **C91** The rank is even: It is twice the genus. -/
theorem C91_even (H : LawfulLengths O c ε) {E : IET T} {s : σ} (h : H.Ok E s) :
    (Matrix.of (fun x y : E.top.toFinset => (E.crossing x y : ℚ))).rank = 2 * E.genus := by
  have h1 := IET.rank_eq H h.valid
  have h2 : (H.abs E s).rank = (Matrix.of (fun x y : E.top.toFinset => (E.crossing x y : ℚ))).rank := by
    unfold AIET.rank crossRank
    congr 1
    ext x y
    show cross E.top E.bottom x y = ((E.crossing x y : ℤ) : ℚ)
    unfold IET.crossing cross precedes
    push_cast
    rfl
  rw [← h2, h1]

/-- The genera of all the IETs. -/
noncomputable def World.genus (w : World σ T) : ℕ := (w.pieces.map IET.genus).sum

/-- How many intervals there are in all the IETs. -/
def World.intervals (w : World σ T) : ℕ := (w.pieces.map (fun E => E.top.length)).sum

theorem ranks_map (H : LawfulLengths O c ε) (s : σ) (l : List (IET T)) (h : ∀ E ∈ l, (H.abs E s).Valid) :
    ranks ((l.map (fun E => H.abs E s) : List (AIET T)) : Multiset (AIET T)) = 2 * (l.map IET.genus).sum ∧
    sizes ((l.map (fun E => H.abs E s) : List (AIET T)) : Multiset (AIET T)) = (l.map (fun E => E.top.length)).sum := by
  induction l with
  | nil => simp [ranks, sizes]
  | cons E l ih =>
    obtain ⟨ih1, ih2⟩ := ih (fun F hF => h F (List.mem_cons_of_mem _ hF))
    simp only [List.map_cons, ← Multiset.cons_coe, ranks_cons, sizes_cons, List.sum_cons]
    rw [ih1, ih2, IET.rank_eq H (h E (by simp))]
    exact ⟨by ring, rfl⟩

/-- **C91** No calls on any IETs increase the genus.  The genus decreases by at most one for each interval that is removed, in particular, it is kept by
calls that do not remove intervals. -/
theorem C91_calls (H : LawfulLengths O c ε) {L : PPL} (hL : L.Lawful) {w w' : World σ T} (h : Reachable H L w) {ops : List Op}
    (hr : Run L O ops w w') : w'.genus ≤ w.genus ∧ w.genus + w'.intervals ≤ w'.genus + w.intervals := by
  induction hr with
  | nil => exact ⟨le_rfl, le_rfl⟩
  | @cons w w₁ w₂ ops fuel op he hr ih =>
    have ih := ih (.step fuel op h he)
    have hw₁ : Reachable H L w₁ := .step fuel op h he
    have key : w₁.genus ≤ w.genus ∧ w.genus + w₁.intervals ≤ w₁.genus + w.intervals := by
      have hs := h.exec hL he
      cases hE : w.pieces[op.index]? with
      | none => rw [hs.skip hE]; exact ⟨le_rfl, le_rfl⟩
      | some E =>
        obtain ⟨new, E', h1, h2, -, -⟩ := hs.effect E hE
        have hlt : op.index < w.pieces.length := (List.getElem?_eq_some_iff.1 hE).1
        have hEq : w.pieces[op.index] = E := (List.getElem?_eq_some_iff.1 hE).2
        have e1 : w.pieces = w.pieces.take op.index ++ E :: w.pieces.drop (op.index + 1) := by
          conv_lhs => rw [← List.take_append_drop op.index w.pieces, List.drop_eq_getElem_cons hlt, hEq]
        have e2 : w₁.pieces = (w.pieces.take op.index ++ E' :: w.pieces.drop (op.index + 1)) ++ new := by
          rw [h1, List.set_eq_take_append_cons_drop, if_pos hlt]
        have hv := (h.good hL (List.mem_of_getElem? hE)).ok.valid
        have hv' : ∀ F ∈ w₁.pieces, (H.abs F w₁.lengths).Valid := fun F hF => (hw₁.good hL hF).ok.valid
        have g1 := h2.ranks hv
        obtain ⟨g2, g3⟩ := ranks_map H w₁.lengths new (fun F hF => hv' F (by rw [e2]; simp [hF]))
        rw [g2, g3, IET.rank_eq H hv, IET.rank_eq H (hv' E' (by rw [e2]; simp))] at g1
        have g4 : (H.abs E' w₁.lengths).top.length = E'.top.length := rfl
        have g5 : (H.abs E w.lengths).top.length = E.top.length := rfl
        rw [g4, g5] at g1
        unfold World.genus World.intervals
        rw [e2, e1]
        simp only [List.map_append, List.map_cons, List.sum_append, List.sum_cons]
        rw [← e1]
        omega
    omega

/-- The genera of all the components. -/
noncomputable def Decomp.genus (D : Decomp σ T) : ℕ := (D.comps.map (fun x => x.iet.genus)).sum

/-- **C91** When an IET is decomposed, the sum of the genera of the components never exceeds the genus of the IET, and it only gets smaller when non-separating
connections are removed, namely by at most one for each of them. -/
theorem C91_decomposition (H : LawfulLengths O c ε) {L : PPL} (hL : L.Lawful) {E : IET T} {s : σ} (hE : H.Ok E s) {D : Decomp σ T}
    {steps : List DStep} (h : DReach L O E s D steps) : D.genus ≤ E.genus ∧ E.genus ≤ D.genus + nonSeparatingCount steps := by
  have h1 := (h.rws hL H hE).ranks
  obtain ⟨-, h2⟩ := h.counts H hL hE
  have hv := h.valid hL H hE
  have e : ∀ l : List (Comp T), (∀ x ∈ l, (H.abs x.iet D.lengths.inner).Valid) →
      ranks ((l.map (fun x => (H.abs x.iet D.lengths.inner).norm) : List (AIET T)) : Multiset (AIET T)) = 2 * (l.map (fun x => x.iet.genus)).sum ∧
      sizes ((l.map (fun x => (H.abs x.iet D.lengths.inner).norm) : List (AIET T)) : Multiset (AIET T)) = (l.map (fun x => x.iet.top.length)).sum := by
    intro l hl
    induction l with
    | nil => simp [ranks, sizes]
    | cons x l ih =>
      obtain ⟨ih1, ih2⟩ := ih (fun y hy => hl y (List.mem_cons_of_mem _ hy))
      simp only [List.map_cons, ← Multiset.cons_coe, ranks_cons, sizes_cons, List.sum_cons]
      rw [ih1, ih2, AIET.rank_norm, IET.rank_eq H (hl x (by simp))]
      exact ⟨by ring, rfl⟩
  obtain ⟨e1, e2⟩ := e D.comps hv
  rw [ranks_singleton, sizes_singleton, AIET.rank_norm, IET.rank_eq H hE.valid] at h1
  have e3 : ranks (D.parts H) = 2 * D.genus := e1
  have e4 : sizes (D.parts H) = D.intervals := e2
  have e5 : (H.abs E s).norm.top.length = E.top.length := rfl
  rw [e3, e4, e5] at h1
  omega

/-- **C91** In any state of a decomposition, there are at most as many components whose first intervals differ as the genus. -/
theorem C91_bound (H : LawfulLengths O c ε) {L : PPL} (hL : L.Lawful) {E : IET T} {s : σ} (hE : H.Ok E s) {D : Decomp σ T}
    {steps : List DStep} (h : DReach L O E s D steps) :
    (D.comps.filter (fun x => x.iet.top.head? ≠ x.iet.bottom.head?)).length ≤ E.genus := by
  refine le_trans ?_ (C91_decomposition H hL hE h).1
  have hv := h.valid hL H hE
  unfold Decomp.genus
  generalize D.comps = l at hv
  induction l with
  | nil => simp
  | cons x l ih =>
    have ih := ih (fun y hy => hv y (List.mem_cons_of_mem _ hy))
    rw [List.map_cons, List.sum_cons]
    by_cases hx : x.iet.top.head? ≠ x.iet.bottom.head?
    · rw [List.filter_cons_of_pos (by simpa using hx), List.length_cons]
      have h1 := AIET.two_le_rank (hv x (by simp)) hx
      rw [IET.rank_eq H (hv x (by simp))] at h1
      omega
    · rw [List.filter_cons_of_neg (by simpa using hx)]
      omega

theorem AIET.Valid.heads_ne {A : AIET T} (hA : A.Valid) (h : ¬ A.HasConnection) (hlen : A.top.length ≠ 1) (hne : A.top ≠ []) : A.top.head? ≠ A.bottom.head? := by
  intro e
  apply h
  obtain ⟨t, b, len⟩ := A
  have hp : b.Perm t := hA.perm
  simp only at e hlen hne
  match t, b, hlen, hne with
  | [], _, _, hne => exact absurd rfl hne
  | [_], _, hlen, _ => exact absurd rfl hlen
  | x :: y :: t, [], _, _ => exact absurd hp (by simp)
  | x :: y :: t, [z], _, _ => exact absurd hp.length_eq (by simp)
  | x :: y :: t, z :: u :: b, _, _ =>
    simp only [List.head?_cons, Option.some.injEq] at e
    subst e
    refine ⟨x, ?_, x, ?_, 0, ?_⟩
    · rw [List.reverse_cons, List.tail_append_of_ne_nil (by simp)]; simp
    · rw [List.reverse_cons, List.tail_append_of_ne_nil (by simp)]; simp
    · show (_ : T) = _
      simp [AIET.rightBottom, AIET.rightTop, off]

/-- **C91** When no component has a saddle connection, at most as many components as the genus are not cylinders. -/
theorem C91_complete (H : LawfulLengths O c ε) {L : PPL} (hL : L.Lawful) {E : IET T} {s : σ} (hE : H.Ok E s) {D : Decomp σ T}
    {steps : List DStep} (h : DReach L O E s D steps) (hD : D.Complete H) :
    (D.comps.filter (fun x => x.iet.top.length ≠ 1)).length ≤ E.genus := by
  refine le_trans (le_of_eq ?_) (C91_bound H hL hE h)
  congr 1
  refine List.filter_congr (fun x hx => ?_)
  have hv := h.valid hL H hE x hx
  have hne := (h.labels H hL hE hx).2.1
  by_cases e : x.iet.top.length = 1
  · obtain ⟨a, ha⟩ := List.length_eq_one_iff.mp e
    have : x.iet.bottom = [a] := List.perm_singleton.mp (ha ▸ hv.perm)
    simp [ha, this]
  · have := hv.heads_ne (hD x hx) e hne
    have this : x.iet.top.head? ≠ x.iet.bottom.head? := this
    simp [e, this]

/-- **C91** In any state of a decomposition, at most as many components as the genus have only dense orbits. -/
theorem C91_minimal (H : LawfulLengths O c ε) {L : PPL} (hL : L.Lawful) {E : IET T} {s : σ} (hE : H.Ok E s) {D : Decomp σ T}
    {steps : List DStep} (h : DReach L O E s D steps) {ι : T →+ P} (hι : StrictMono ι) {K : List (Comp T)} (hK : K.Sublist D.comps)
    (hmin : ∀ x ∈ K, ((H.abs x.iet D.lengths.inner).map ι).Minimal) : K.length ≤ E.genus := by
  refine le_trans ?_ (C91_bound H hL hE h)
  have e : K.filter (fun x => x.iet.top.head? ≠ x.iet.bottom.head?) = K := by
    rw [List.filter_eq_self]
    intro x hx
    have hx' := hK.subset hx
    have hv := h.valid hL H hE x hx'
    have hne := (h.labels H hL hE hx').2.1
    simp only [ne_eq, decide_not, Bool.not_eq_eq_eq_not, Bool.not_true, decide_eq_false_iff_not]
    intro e
    refine C75_exclusive (hv.map hι) (hmin x hx) ⟨0, .single ?_⟩
    have hv' := hv.map hι
    cases ht : x.iet.top with
    | nil => exact absurd ht hne
    | cons a t =>
      cases hb : x.iet.bottom with
      | nil => rw [ht, hb] at e; cases e
      | cons b l =>
        rw [ht, hb] at e
        simp only [List.head?_cons, Option.some.injEq] at e
        subst e
        have ha : a ∈ (AIET.map ι (H.abs x.iet D.lengths.inner)).top := by
          show a ∈ x.iet.top
          rw [ht]; simp
        have h1 : off (AIET.map ι (H.abs x.iet D.lengths.inner)).len (AIET.map ι (H.abs x.iet D.lengths.inner)).top a = 0 := by
          show off _ x.iet.top a = 0
          rw [ht]; simp [off]
        have h2 : off (AIET.map ι (H.abs x.iet D.lengths.inner)).len (AIET.map ι (H.abs x.iet D.lengths.inner)).bottom a = 0 := by
          show off _ x.iet.bottom a = 0
          rw [hb]; simp [off]
        refine ⟨a, ha, le_of_eq h1, ?_, ?_⟩
        · rw [h1, zero_add]; exact hv'.pos a ha
        · rw [h1, h2]; simp
  rw [← e]
  exact (hK.filter _).length_le

/-- **C91** The genus is at most half of the number of the intervals. -/
theorem C91_intervals (H : LawfulLengths O c ε) {E : IET T} {s : σ} (hE : H.Ok E s) : 2 * E.genus ≤ E.top.length := by
  rw [← IET.rank_eq H hE.valid]
  exact AIET.rank_le_length _

/-- **C91** In any state of a decomposition, there are at most as many components as there are intervals beyond the genus.  (For a surface of genus `g` with `s`
singularities there are `2 * g + s - 1` intervals so there are at most `g + s - 1` components.) -/
theorem C91_components (H : LawfulLengths O c ε) {L : PPL} (hL : L.Lawful) {E : IET T} {s : σ} (hE : H.Ok E s) {D : Decomp σ T}
    {steps : List DStep} (h : DReach L O E s D steps) : D.comps.length + E.genus ≤ E.top.length := by
  have h1 := (C91_decomposition H hL hE h).2
  obtain ⟨-, h2⟩ := h.counts H hL hE
  have key : D.comps.length + D.genus ≤ D.intervals := by
    have hv := h.valid hL H hE
    have hne : ∀ x ∈ D.comps, x.iet.top ≠ [] := fun x hx => (h.labels H hL hE hx).2.1
    unfold Decomp.genus Decomp.intervals
    generalize D.comps = l at hv hne
    induction l with
    | nil => simp
    | cons x l ih =>
      have ih := ih (fun y hy => hv y (List.mem_cons_of_mem _ hy)) (fun y hy => hne y (List.mem_cons_of_mem _ hy))
      have g1 : (H.abs x.iet D.lengths.inner).rank ≤ x.iet.top.length := AIET.rank_le_length _
      rw [IET.rank_eq H (hv x (by simp))] at g1
      have g2 := List.length_pos_of_ne_nil (hne x (by simp))
      simp only [List.map_cons, List.sum_cons, List.length_cons]
      omega
  omega

/-! ### An example: two rotations with lengths `1` and `√2` next to each other -/

namespace Examples

/-- Two rotations next to each other. -/
def twoRotIET : IET Q2 := .fresh [0, 1, 2, 3] [1, 0, 3, 2]
/-- Their lengths. -/
def twoRotState : SLengths Q2 := ⟨[], [⟨1, 0⟩, ⟨0, 1⟩, ⟨1, 0⟩, ⟨0, 1⟩]⟩

theorem twoRot_ok : hQ2.Ok twoRotIET twoRotState := sample_ok _ _ _ _ (by decide)

/-- The labels of the components after some steps. -/
noncomputable def twoRotLabels (calls : List (ℤ × ℕ)) : Option (List (List Label × List Label)) :=
  match Decomp.runFrom PPL.ideal (SLengths.ops q2Arith) twoRotIET twoRotState 20 calls with
  | .ok (r : List DStep × Decomp (SLengths Q2) Q2) => some (r.2.comps.map (fun x : Comp Q2 => (x.iet.top, x.iet.bottom)))
  | .error _ => none

theorem twoRot_run : twoRotLabels [(-1, 0)] = some [([0, 1], [1, 0]), ([2, 3], [3, 2])] := by decide +kernel

end Examples

open Examples in
/-- The bound is attained: the genus is two and so is the number of components that are not cylinders. -/
theorem C91_attained : ∃ D steps, DReach PPL.ideal (SLengths.ops q2Arith) twoRotIET twoRotState D steps ∧ twoRotIET.genus = 2 ∧
    (D.comps.filter (fun x : Comp Q2 => x.iet.top.head? ≠ x.iet.bottom.head?)).length = 2 ∧
    (D.comps.filter (fun x : Comp Q2 => x.iet.top.length ≠ 1)).length = 2 := by
  have hr := twoRot_run
  unfold twoRotLabels at hr
  split at hr
  · rename_i r hr'
    have h1 := Option.some.inj hr
    have hD : DReach PPL.ideal (SLengths.ops q2Arith) twoRotIET twoRotState r.2 r.1 := .runFrom hr'
    have key : ∀ (l : List (Comp Q2)) (p : List Label × List Label → Bool), (l.filter (fun x => p (x.iet.top, x.iet.bottom))).length =
        ((l.map (fun x : Comp Q2 => (x.iet.top, x.iet.bottom))).filter p).length := by
      intro l p
      rw [List.filter_map, List.length_map]
      rfl
    have e1 : (r.2.comps.filter (fun x : Comp Q2 => x.iet.top.head? ≠ x.iet.bottom.head?)).length = 2 := by
      have := key r.2.comps (fun p => decide (p.1.head? ≠ p.2.head?))
      rw [h1] at this
      exact this.trans (by decide)
    have e2 : (r.2.comps.filter (fun x : Comp Q2 => x.iet.top.length ≠ 1)).length = 2 := by
      have := key r.2.comps (fun p => decide (p.1.length ≠ 1))
      rw [h1] at this
      exact this.trans (by decide)
    refine ⟨r.2, r.1, hD, le_antisymm ?_ ?_, e1, e2⟩
    · have := C91_intervals hQ2 twoRot_ok
      have h4 : twoRotIET.top.length = 4 := rfl
      omega
    · rw [← e1]
      exact C91_bound hQ2 PPL.ideal_lawful twoRot_ok hD
  · cases hr

end Verif
