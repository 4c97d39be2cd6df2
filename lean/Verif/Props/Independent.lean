import Verif.Proofs.Independent
import Verif.Props.RankTwo
import Mathlib.LinearAlgebra.Dimension.OrzechProperty
import Mathlib.RingTheory.Localization.Module

/-!
# C69: lengths without a linear relation are recognised at once

When there is no linear relation with integer coefficients between the lengths, then an irreducible IET is reported to be without periodic trajectories (and to
satisfy Keane's condition) no matter how many rounds of induction are performed, and all decompositions are completed without any induction.
-/

namespace Verif

set_option linter.unusedSectionVars false

variable {σ T ε : Type} [CommRing T] [LinearOrder T] [IsStrictOrderedRing T] {O : LengthsOps σ T} {d : ℕ} {c : T →+ (Fin d → ℚ)}

/-- **C69** `boshernitzanNoPeriodicTrajectory()` is true when the IET is irreducible, has at least two intervals, and there is no linear relation between its
lengths. -/
theorem C69_noPeriodicTrajectory (H : LawfulLengths O c ε) (hc : ∀ x, c x = 0 → x = 0) {L : PPL} (hL : L.Lawful) {w : World σ T} (h : Reachable H L w)
    {E : IET T} (hE : E ∈ w.pieces) (htwo : 1 < E.top.length) (hirr : (H.abs E w.lengths).Irreducible) (hind : (H.abs E w.lengths).Independent) :
    ∃ F, E.boshernitzanNoPeriodicTrajectory L O w.lengths = .ok (true, F) := by
  have hg := h.good hL hE
  obtain ⟨b, h1, h2⟩ := boshernitzanNoPeriodicTrajectory_spec H hL hg.ok hg.cache
  have hrel := hind.not_posRelation hc hg.ok.valid hirr htwo
  have : b = true := h2.mpr ⟨fun h0 => hrel (posRelation_of_saf hc hg.ok.valid h0), htwo, hrel⟩
  exact ⟨_, by rw [h1, this]⟩

/-- **C69** `boshernitzanNoSaddleConnection(t, b)` is true for all labels `t` and `b` that are not last. -/
theorem C69_noSaddleConnection₂ (H : LawfulLengths O c ε) (hc : ∀ x, c x = 0 → x = 0) {L : PPL} (hL : L.Lawful) {E : IET T} {s : σ} (hE : H.Ok E s)
    (hirr : (H.abs E s).Irreducible) (hind : (H.abs E s).Independent) {t b : Label} (ht : t ∈ E.top.reverse.tail) (hb : b ∈ E.bottom.reverse.tail) :
    E.boshernitzanNoSaddleConnection₂ L O t b s = .ok true := by
  have hv := hE.valid
  obtain ⟨k₁, k₂, t', e1⟩ := exists_next ht
  obtain ⟨l₁, l₂, b', e2⟩ := exists_next hb
  obtain ⟨r, h1, h2⟩ := boshernitzanNoSaddleConnection₂_spec H hL hE e1 e2
  have htwo : 1 < E.top.length := by rw [e1]; simp; omega
  have hmt : t' ∈ E.top := by rw [e1]; simp
  have hmb : b' ∈ E.top := hv.perm.mem_iff.mp (by simp only [LawfulLengths.abs]; rw [e2]; simp)
  have hidx : 0 < E.top.idxOf t' := by
    have hn : E.top.Nodup := hv.nodup
    cases hk : E.top with
    | nil => rw [hk] at hmt; simp at hmt
    | cons y l =>
      by_cases e : y = t'
      · exfalso
        subst e
        rw [e1] at hn hk
        cases k₁ with
        | nil =>
          simp only [List.nil_append, List.cons.injEq] at hk
          rw [List.nil_append, List.nodup_cons] at hn
          exact hn.1 (by simp [hk.1])
        | cons z k₁ =>
          simp only [List.cons_append, List.cons.injEq] at hk
          rw [List.cons_append, List.nodup_cons] at hn
          exact hn.1 (by simp [hk.1])
      · rw [List.idxOf_cons_ne _ e]; omega
  obtain ⟨h3, h4⟩ := hind.not_connected (c := c) hc hv hirr htwo (t := t') (b := b') hmt hmb hidx
  rw [h1, h2.mpr ⟨fun h5 => h3 (hc _ h5), h4⟩]

/-- **C69** `boshernitzanNoSaddleConnection()` is true when the IET is irreducible, has at least two intervals, and there is no linear relation between its
lengths. -/
theorem C69_noSaddleConnection (H : LawfulLengths O c ε) (hc : ∀ x, c x = 0 → x = 0) {L : PPL} (hL : L.Lawful) {E : IET T} {s : σ} (hE : H.Ok E s)
    (htwo : 1 < E.top.length) (hirr : (H.abs E s).Irreducible) (hind : (H.abs E s).Independent) :
    E.boshernitzanNoSaddleConnection L O s = .ok true := by
  unfold IET.boshernitzanNoSaddleConnection
  rw [if_neg (by simpa [IET.size] using htwo), allM_spec _ (fun _ => true)]
  · simp
  · intro t ht
    rw [allM_spec _ (fun _ => true)]
    · simp
    · exact fun b hb => C69_noSaddleConnection₂ H hc hL hE hirr hind ht hb

/-- **C69** `induce()` reports WITHOUT_PERIODIC_TRAJECTORY_BOSHERNITZAN for all limits. -/
theorem C69_induce (H : LawfulLengths O c ε) (hc : ∀ x, c x = 0 → x = 0) {L : PPL} (hL : L.Lawful) {w : World σ T} (h : Reachable H L w)
    {E : IET T} (hE : E ∈ w.pieces) (htwo : 1 < E.top.length) (hirr : (H.abs E w.lengths).Irreducible) (hind : (H.abs E w.lengths).Independent)
    (limit fuel : ℕ) :
    ∃ step E' s', E.induce L O fuel limit w.lengths = .ok (step, E', s') ∧ step.result = .withoutPeriodicTrajectoryBoshernitzan ∧
      (H.abs E' s').Irreducible ∧ (H.abs E' s').Independent := by
  have hg := h.good hL hE
  have hv := hg.ok.valid
  rcases induce_spec H hL fuel limit E w.lengths hg with ⟨-, h1⟩ | ⟨step, E', s', h1, hs, -⟩
  · omega
  refine ⟨step, E', s', h1, ?_⟩
  cases hs with
  | cylinder h2 => omega
  | auto _ _ _ _ h0 => exact absurd (posRelation_of_saf hc hv h0) (hind.not_posRelation hc hv hirr htwo)
  | @finish E₁ _ _ _ h2 hm hf =>
    have hs := hm.steps
    have hv₁ := Steps.valid hv hs
    have hirr₁ := Steps.irreducible hv hs hirr
    have hind₁ := Steps.independent hv hs hind
    have htwo₁ : 1 < E₁.top.length := by
      have : E₁.top.length = E.top.length := (Steps.top_perm hs).length_eq
      omega
    cases hf with
    | separating hcut => exact absurd (hcut.left_eq ▸ hcut.perm).symm (hirr₁ _ hcut.pos hcut.lt)
    | @nonSeparating _ b t l _ g1 g2 _ g3 =>
      exact absurd (show HeadsEq (H.abs E₁ s') by
        intro x y hx hy
        simp only [LawfulLengths.abs, g1, g2, List.head?_cons, Option.some.injEq] at hx hy
        rw [← hx, ← hy]
        exact g3) (hind₁.not_headsEq hv₁ htwo₁ hirr₁)
    | boshernitzan g1 g2 =>
      have habs : H.abs E₁ s' = H.abs E' s' := by simp [LawfulLengths.abs, g1, g2]
      rw [habs] at hirr₁ hind₁
      exact ⟨rfl, hirr₁, hind₁⟩
    | limit _ _ _ _ h0 => exact absurd (h0.elim (posRelation_of_saf hc hv₁) id) (hind₁.not_posRelation hc hv₁ hirr₁ htwo₁)

/-- **C69** `induce()` without a limit never returns since there are no connections. -/
theorem C69_induce_unlimited (H : LawfulLengths O c ε) (hc : ∀ x, c x = 0 → x = 0) {L : PPL} (hL : L.Lawful) {w : World σ T} (h : Reachable H L w)
    {E : IET T} (hE : E ∈ w.pieces) (htwo : 1 < E.top.length) (hirr : (H.abs E w.lengths).Irreducible) (hind : (H.abs E w.lengths).Independent)
    (fuel : ℕ) : E.induce L O fuel (-1) w.lengths = .error .fuel := by
  have hg := h.good hL hE
  have hv := hg.ok.valid
  rcases induce_spec H hL fuel (-1) E w.lengths hg with ⟨h1, -⟩ | ⟨step, E', s', h1, hs, -⟩
  · exact h1
  exfalso
  cases hs with
  | cylinder h2 => omega
  | auto _ _ _ _ h0 => exact absurd (posRelation_of_saf hc hv h0) (hind.not_posRelation hc hv hirr htwo)
  | @finish E₁ _ _ _ h2 hm hf _ hh =>
    have hs := hm.steps
    have htwo₁ : 1 < E₁.top.length := by
      have : E₁.top.length = E.top.length := (Steps.top_perm hs).length_eq
      omega
    exact (Steps.independent hv hs hind).not_headsEq (Steps.valid hv hs) htwo₁ (Steps.irreducible hv hs hirr) (hh rfl)

/-! ### Decompositions -/

/-- Independence in terms of the coordinates. -/
theorem AIET.independent_iff (hc : ∀ x, c x = 0 → x = 0) {A : AIET T} (hn : A.top.Nodup) :
    A.Independent ↔ LinearIndependent ℚ (fun i : Fin (A.top.map (fun a => c (A.len a))).length => (A.top.map (fun a => c (A.len a))).get i) := by
  rw [← LinearIndependent.iff_fractionRing ℤ ℚ, Fintype.linearIndependent_iff]
  have hinj : ∀ x y : T, c x = c y → x = y := fun x y h => sub_eq_zero.mp (hc _ (by rw [map_sub, h, sub_self]))
  have hsum : ∀ z : Label → ℤ, c (sumLen (fun a => (z a : T) * A.len a) A.top) =
      ∑ i : Fin (A.top.map (fun a => c (A.len a))).length, z (A.top.get (i.cast (by simp))) • (A.top.map (fun a => c (A.len a))).get i := by
    intro z
    have h1 : ∀ l : List Label, c (sumLen (fun a => (z a : T) * A.len a) l) = (l.map (fun a => z a • c (A.len a))).sum := by
      intro l
      induction l with
      | nil => simp
      | cons a l ih => rw [sumLen_cons, map_add, ih, List.map_cons, List.sum_cons, ← zsmul_eq_mul, map_zsmul]
    rw [h1, ← List.sum_ofFn]
    congr 1
    apply List.ext_getElem
    · simp
    · intro i h1 h2
      simp
  constructor
  · intro h g hg i
    have hi : ∀ i : Fin (A.top.map (fun a => c (A.len a))).length, i.1 < A.top.length := fun i => by simpa using i.2
    let z : Label → ℤ := fun a => if ha : A.top.idxOf a < (A.top.map (fun a => c (A.len a))).length then g ⟨_, ha⟩ else 0
    have hz : ∀ i : Fin (A.top.map (fun a => c (A.len a))).length, z (A.top.get (i.cast (by simp))) = g i := by
      intro i
      have e : A.top.idxOf (A.top.get (i.cast (by simp))) = i := by
        rw [List.get_eq_getElem]
        exact hn.idxOf_getElem _ _
      show (if ha : _ then _ else _) = _
      rw [dif_pos (by rw [e]; exact i.2)]
      congr 1
      exact Fin.ext e
    rw [← hz i]
    refine h z (hinj _ _ ?_) _ (List.get_mem _ _)
    rw [hsum, map_zero, ← hg]
    exact Finset.sum_congr rfl (fun i _ => by rw [hz i])
  · intro h z hz a ha
    have := hsum z
    rw [hz, map_zero] at this
    obtain ⟨i, hi, rfl⟩ := List.mem_iff_getElem.mp ha
    exact h (fun i => z (A.top.get (i.cast (by simp)))) this.symm ⟨i, by simpa using hi⟩

/-- At most `n` vectors that span `n` independent vectors are independent. -/
theorem independent_of_span {V : Type} [AddCommGroup V] [Module ℚ V] {l l' : List V} (h : LinearIndependent ℚ (fun i : Fin l.length => l.get i))
    (hlen : l'.length ≤ l.length) (hspan : ∀ v ∈ l, v ∈ Submodule.span ℚ {v | v ∈ l'}) :
    l'.length = l.length ∧ LinearIndependent ℚ (fun i : Fin l'.length => l'.get i) := by
  have hrange : ∀ m : List V, Set.range (fun i : Fin m.length => m.get i) = {v | v ∈ m} := by
    intro m
    ext v
    simp [List.mem_iff_get]
  have hfin : Module.Finite ℚ (Submodule.span ℚ {v | v ∈ l'}) := by
    rw [← hrange]
    exact Module.Finite.span_of_finite ℚ (Set.finite_range _)
  have h1 := finrank_span_eq_card h
  rw [hrange, Fintype.card_fin] at h1
  have h2 : Submodule.span ℚ {v | v ∈ l} ≤ Submodule.span ℚ {v | v ∈ l'} := Submodule.span_le.mpr hspan
  have h3 := Submodule.finrank_mono h2
  have h4 := finrank_range_le_card (R := ℚ) (b := fun i : Fin l'.length => l'.get i)
  unfold Set.finrank at h4
  rw [hrange, Fintype.card_fin] at h4
  refine ⟨by omega, ?_⟩
  rw [linearIndependent_iff_card_le_finrank_span]
  unfold Set.finrank
  rw [hrange, Fintype.card_fin]
  omega

/-- The vectors of the lengths of all the components. -/
def Decomp.vectors (H : LawfulLengths O c ε) (D : Decomp σ T) : List (Fin d → ℚ) :=
  D.comps.flatMap (fun x => x.iet.top.map (fun a => c (H.len D.lengths.inner a)))

theorem DReach.independent (H : LawfulLengths O c ε) (hc : ∀ x, c x = 0 → x = 0) {L : PPL} (hL : L.Lawful) {E : IET T} {s : σ} (hE : H.Ok E s)
    (hind : (H.abs E s).Independent) {D : Decomp σ T} {steps : List DStep} (h : DReach L O E s D steps) :
    (D.comps.map (fun x => x.iet.top.length)).sum = E.top.length ∧ ∀ x ∈ D.comps, (H.abs x.iet D.lengths.inner).Independent := by
  have hlen : (D.vectors H).length = (D.comps.map (fun x => x.iet.top.length)).sum := by
    unfold Decomp.vectors
    simp [List.length_flatMap]
  have hle := h.sum_length H hL hE
  rw [AIET.independent_iff hc hE.valid.nodup] at hind
  obtain ⟨os, w, g0, -, g2⟩ := C59_towers H hL hE h (ι := AddMonoidHom.id T) (fun _ _ h => h)
  have hspan : ∀ v ∈ (H.abs E s).top.map (fun a => c ((H.abs E s).len a)), v ∈ Submodule.span ℚ {v | v ∈ D.vectors H} := by
    intro v hv
    obtain ⟨b, hb, rfl⟩ := List.mem_map.mp hv
    let Λ : AddSubgroup T := (Submodule.span ℚ {v | v ∈ D.vectors H}).toAddSubgroup.comap c
    have hΛ : ∀ t : T, t ∈ Λ ↔ c t ∈ Submodule.span ℚ {v | v ∈ D.vectors H} := fun t => Iff.rfl
    show c ((H.abs E s).len b) ∈ Submodule.span ℚ {v | v ∈ D.vectors H}
    rw [← hΛ]
    have e := g2.heights b hb
    have e' : (H.abs E s).len b = ((H.abs E s).map (AddMonoidHom.id T)).len b := rfl
    rw [e', e]
    apply AddSubgroup.list_sum_mem
    intro t ht
    obtain ⟨p, hp, rfl⟩ := List.mem_map.mp ht
    have hp2 := (List.of_mem_zip hp).2
    obtain ⟨x, hx, hxp⟩ := List.mem_map.mp hp2
    apply sumLen_mem
    intro a ha
    rw [← nsmul_eq_mul]
    apply AddSubgroup.nsmul_mem
    rw [hΛ]
    apply Submodule.subset_span
    rw [← hxp] at ha ⊢
    exact List.mem_flatMap.mpr ⟨x, hx, List.mem_map.mpr ⟨a, ha, rfl⟩⟩
  obtain ⟨q1, q2⟩ := independent_of_span hind (l' := D.vectors H) (by
    rw [hlen, List.length_map]
    exact hle) hspan
  refine ⟨by rw [← hlen, q1, List.length_map]; rfl, fun x hx => ?_⟩
  have hinv := h.inv hL H (ι := AddMonoidHom.id T) (fun _ _ h => h) hE
  rw [AIET.independent_iff (A := H.abs x.iet D.lengths.inner) hc (hinv.good x hx).ok.valid.nodup]
  obtain ⟨l₁, l₂, e⟩ := List.append_of_mem hx
  set F : Comp T → List (Fin d → ℚ) := fun x => x.iet.top.map (fun a => c (H.len D.lengths.inner a)) with hF
  have ev : D.vectors H = l₁.flatMap F ++ (F x ++ l₂.flatMap F) := by
    unfold Decomp.vectors
    rw [e]
    simp [hF]
  rw [ev] at q2
  let emb : Fin (F x).length → Fin (l₁.flatMap F ++ (F x ++ l₂.flatMap F)).length := fun i =>
    ⟨(l₁.flatMap F).length + i, by simp only [List.length_append]; omega⟩
  have hemb : Function.Injective emb := by
    intro i j hij
    have := congrArg Fin.val hij
    simp only [emb] at this
    exact Fin.ext (by omega)
  have := q2.comp emb hemb
  have e2 : (fun i : Fin (F x).length => (F x).get i) =
      (fun i : Fin (l₁.flatMap F ++ (F x ++ l₂.flatMap F)).length => (l₁.flatMap F ++ (F x ++ l₂.flatMap F)).get i) ∘ emb := by
    funext i
    simp only [Function.comp, emb, List.get_eq_getElem]
    rw [List.getElem_append_right (by omega), List.getElem_append_left (by simp)]
    simp
  show LinearIndependent ℚ (fun i : Fin (F x).length => (F x).get i)
  rw [e2]
  exact this

/-- Components of a decomposition do not need any rounds of induction. -/
theorem bounded_at_once {H : LawfulLengths O c ε} (hc : ∀ x, c x = 0 → x = 0) {L : PPL} (hL : L.Lawful) {A₀ : AIET T} {R : List Conn} {au : Bool → Prop}
    {D : Decomp σ T} (hinv : D.Inv H (AddMonoidHom.id T) A₀ R au) {i : ℕ} {x : Comp T} (hi : D.comps[i]? = some x)
    (hind : (H.abs x.iet D.lengths.inner).Independent) (limit : ℕ) :
    ∃ step D', D.decompositionStepBounded L O limit i = .ok (step, D') ∧ step.result ≠ .limitReached := by
  have hx := List.mem_of_getElem? hi
  have hv := (hinv.good x hx).ok.valid
  obtain ⟨step, D', h1, -⟩ := decompositionStepBounded_spec (fun _ _ h => h) hL hinv hi (limit := (limit : ℤ)) (by omega)
  refine ⟨step, D', h1, fun hr => ?_⟩
  obtain ⟨x', hi', hinv', h2, h3, h4, h5⟩ := bounded_rounds hL hc hinv hi h1 hr
  have hs := rounds_steps hv h2
  have hperm : x'.iet.top.length = x.iet.top.length := (Steps.top_perm hs).length_eq
  have hne := List.length_pos_of_ne_nil hv.ne_nil
  simp only [LawfulLengths.abs] at hne
  exact (Steps.independent hv hs hind).not_posRelation hc (Steps.valid hv hs) h3 (show 1 < x'.iet.top.length by omega) h4

/-- **C69** `decompositionStep()` with any limit, or without a limit, does not report LIMIT_REACHED, and it does not report NON_SEPARATING_CONNECTION. -/
theorem C69_decompositionStep (H : LawfulLengths O c ε) (hc : ∀ x, c x = 0 → x = 0) {L : PPL} (hL : L.Lawful) {E : IET T} {s : σ} (hE : H.Ok E s)
    (hind : (H.abs E s).Independent) {D : Decomp σ T} {steps : List DStep} (h : DReach L O E s D steps) {i : ℕ} (hi : i < D.comps.length)
    {limit : ℤ} (hlimit : -1 ≤ limit) :
    ∃ step D', (∀ fuel, 0 < fuel → D.decompositionStep L O fuel limit i = .ok (step, D')) ∧
      step.result ≠ .limitReached ∧ step.result ≠ .nonSeparatingConnection := by
  have hinv := h.inv hL H (ι := AddMonoidHom.id T) (fun _ _ h => h) hE
  have hi := List.getElem?_eq_getElem hi
  have hx := List.mem_of_getElem? hi
  have hall := h.independent H hc hL hE hind
  obtain ⟨step, D', h1, hr⟩ : ∃ step D', (∀ fuel, 0 < fuel → D.decompositionStep L O fuel limit i = .ok (step, D')) ∧ step.result ≠ .limitReached := by
    by_cases hl : limit = -1
    · subst hl
      obtain ⟨y, hi', hinv', e1, e2, hrun⟩ := unlimited_eq (L := L) hinv hi
      have habs : H.abs y.iet (D.setComp i y).lengths.inner = H.abs D.comps[i].iet D.lengths.inner := by simp only [LawfulLengths.abs, e1, e2, Decomp.setComp]
      obtain ⟨step, D', h1, hr⟩ := bounded_at_once hc hL hinv' hi' (by rw [habs]; exact hall.2 _ hx) 0
      refine ⟨step, D', fun fuel hf => ?_, hr⟩
      obtain ⟨n, rfl⟩ : ∃ m, fuel = m + 1 := ⟨fuel - 1, by omega⟩
      rw [hrun]
      simp only [Decomp.unlimited, h1, bind, Except.bind]
      rw [if_pos hr]
      rfl
    · obtain ⟨k, rfl⟩ : ∃ k : ℕ, limit = k := ⟨limit.toNat, by omega⟩
      obtain ⟨step, D', h1, hr⟩ := bounded_at_once hc hL hinv hi (hall.2 _ hx) k
      refine ⟨step, D', fun fuel _ => ?_, hr⟩
      unfold Decomp.decompositionStep
      rw [if_neg hl, h1]
  refine ⟨step, D', h1, hr, fun hn => ?_⟩
  have hstep := h1 1 one_pos
  obtain ⟨x, hix, he, -⟩ := h.effect hL H hE hstep
  rw [hi] at hix
  cases hix
  have h2 := ((DReach.step 1 limit i h hstep).independent H hc hL hE hind).1
  have hset : ∀ {comps : List (Comp T)} {i : ℕ} {x x' : Comp T}, comps[i]? = some x →
      ((comps.set i x').map (fun x => x.iet.top.length)).sum + x.iet.top.length = (comps.map (fun x => x.iet.top.length)).sum + x'.iet.top.length := by
    intro comps
    induction comps with
    | nil => intro i x x' h; simp at h
    | cons z comps ih =>
      intro i x x' h
      cases i with
      | zero => simp at h; subst h; simp; omega
      | succ i =>
        have := ih (x' := x') (by simpa using h)
        simp only [List.set_cons_succ, List.map_cons, List.sum_cons]
        omega
  obtain ⟨comps', lengths'⟩ := D'
  simp only at he h2
  cases he with
  | same _ _ _ _ a5 => exact a5 hn
  | split a1 => rw [a1] at hn; cases hn
  | @merge x' _ _ _ _ a4 =>
    have e1 := hset (x' := x') hi
    have e2 := a4.length_eq
    rw [List.length_cons] at e2
    have e3 := hall.1
    omega

/-- **C69** `decompose()` with any limit, or without a limit, returns true, and all components are known to be cylinders or known to be without periodic
trajectories then. No interval has been removed. -/
theorem C69_decompose (H : LawfulLengths O c ε) (hc : ∀ x, c x = 0 → x = 0) {L : PPL} (hL : L.Lawful) {E : IET T} {s : σ} (hE : H.Ok E s)
    (hind : (H.abs E s).Independent) {D : Decomp σ T} {steps : List DStep} (h : DReach L O E s D steps) {limit : ℤ} (hlimit : -1 ≤ limit) :
    ∃ fuel D', (∀ n, fuel ≤ n → D.decompose L O Decomp.defaultTarget limit n = .ok (true, D')) ∧
      (∀ x ∈ D'.comps, (x.cylinder = some true ∧ x.withoutPeriodicTrajectory = some false) ∨
        (x.cylinder = some false ∧ x.withoutPeriodicTrajectory = some true)) ∧
      (D'.comps.map (fun x => x.iet.top.length)).sum = E.top.length := by
  obtain ⟨F, D', h1⟩ := decomposeAll_settles H hL hE (limit := limit) (by
    intro D steps i x h hi
    obtain ⟨step, D', h1, h2, -⟩ := C69_decompositionStep H hc hL hE hind h (List.getElem?_eq_some_iff.mp hi).1 hlimit
    exact ⟨1, step, D', h2, fun n hn => h1 n (by omega)⟩) (target := Decomp.defaultTarget) (by
    rintro x (hx | hx) <;> simp [Decomp.defaultTarget, hx]) (List.range D.comps.length) h (fun i hi => List.mem_range.mp hi)
  refine ⟨F, D', h1, C38_default H hL hE h (h1 F (le_refl _)), ?_⟩
  obtain ⟨steps', h2, -⟩ := C38_target H hL hE h (h1 F (le_refl _))
  exact (h2.independent H hc hL hE hind).1

/-! ### An example: the rotation with lengths `1` and `√2` -/

theorem Examples.q2Rot_independent : (Examples.hQ2.abs Examples.q2RotIET Examples.q2RotState).Independent := by
  intro z hz
  have h1 : ((z 0 : ℤ) : Examples.Q2) * ⟨1, 0⟩ + (((z 1 : ℤ) : Examples.Q2) * ⟨0, 1⟩ + 0) = 0 := hz
  have h2 := congrArg Zsqrtd.re h1
  have h3 := congrArg Zsqrtd.im h1
  simp at h2 h3
  intro a ha
  have ha' : a ∈ [0, 1] := ha
  simp at ha'
  rcases ha' with rfl | rfl
  · exact h2
  · exact h3

theorem Examples.q2Rot_irreducible : (Examples.hQ2.abs Examples.q2RotIET Examples.q2RotState).Irreducible := by
  intro k h0 h1
  have : k < 2 := h1
  obtain rfl : k = 1 := by omega
  show ¬ ([0] : List Label).Perm [1]
  decide

example : Examples.q2RotIET.boshernitzanNoSaddleConnection PPL.ideal (SLengths.ops Examples.q2Arith) Examples.q2RotState = .ok true :=
  C69_noSaddleConnection Examples.hQ2 Examples.q2_faithful PPL.ideal_lawful Examples.q2Rot_ok (by decide) Examples.q2Rot_irreducible Examples.q2Rot_independent

example : ∃ D fuel D', Decomp.make (SLengths.ops Examples.q2Arith) Examples.q2RotIET Examples.q2RotState = .ok D ∧
    ∀ n, fuel ≤ n → D.decompose PPL.ideal (SLengths.ops Examples.q2Arith) Decomp.defaultTarget 0 n = .ok (true, D') := by
  obtain ⟨D, h1, -⟩ := Decomp.make_spec Examples.hQ2 (ι := AddMonoidHom.id Examples.Q2) (fun _ _ h => h) Examples.q2Rot_ok
  obtain ⟨F, D', h2, -⟩ := C69_decompose Examples.hQ2 Examples.q2_faithful PPL.ideal_lawful Examples.q2Rot_ok Examples.q2Rot_independent (.init h1)
    (limit := 0) (by omega)
  exact ⟨D, F, D', h1, h2⟩

end Verif
