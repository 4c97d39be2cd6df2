import Verif.Proofs.Bosh
import Verif.Proofs.Sample

/-!
# The similarity tracker
-/

namespace Verif

set_option linter.unusedSectionVars false

section

variable {T : Type} [CommRing T] [LinearOrder T] [IsStrictOrderedRing T]

theorem make_spec {l : List T} (h : ∀ x ∈ l, 0 ≤ x) : SLengths.make l = .ok ⟨[], l⟩ := by
  unfold SLengths.make
  rw [if_neg]
  simp only [List.any_eq_true, decide_eq_true_eq, not_exists, not_and, not_lt]
  exact h

theorem onlyLoop_spec (keep : List Label) : ∀ (ls : List Label) (s : SLengths T), (∀ l ∈ ls, l < s.lengths.length) →
    ∃ s', SLengths.onlyLoop keep ls s = .ok s' ∧ s'.stack = s.stack ∧ s'.lengths.length = s.lengths.length ∧
      ∀ a, s'.lengths[a]? = if a ∈ ls ∧ a ∉ keep ∧ a < s.lengths.length then some 0 else s.lengths[a]?
  | [], s, _ => ⟨s, rfl, rfl, rfl, by simp⟩
  | l :: ls, s, h => by
    have hl := h l (by simp)
    by_cases hk : l ∈ keep
    · obtain ⟨s', g1, g2, g3, g4⟩ := onlyLoop_spec keep ls s (fun x hx => h x (by simp [hx]))
      refine ⟨s', ?_, g2, g3, ?_⟩
      · simp only [SLengths.onlyLoop, hk, if_true, bind, Except.bind]; exact g1
      · intro a
        rw [g4]
        have : (a ∈ ls ∧ a ∉ keep ∧ a < s.lengths.length) ↔ (a ∈ l :: ls ∧ a ∉ keep ∧ a < s.lengths.length) := by
          constructor
          · rintro ⟨h1, h2⟩; exact ⟨by simp [h1], h2⟩
          · rintro ⟨h1, h2⟩
            rcases List.mem_cons.mp h1 with rfl | h1
            · exact absurd hk h2.1
            · exact ⟨h1, h2⟩
        simp only [this]
    · obtain ⟨s', g1, g2, g3, g4⟩ := onlyLoop_spec keep ls { s with lengths := s.lengths.set l 0 }
        (fun x hx => by simpa using h x (by simp [hx]))
      refine ⟨s', ?_, g2, by simpa using g3, ?_⟩
      · simp only [SLengths.onlyLoop, hk, if_false, SLengths.set, hl, if_true, bind, Except.bind]; exact g1
      · intro a
        rw [g4]
        simp only [List.length_set, List.mem_cons]
        by_cases h1 : a ∈ ls ∧ a ∉ keep ∧ a < s.lengths.length
        · rw [if_pos h1, if_pos ⟨.inr h1.1, h1.2⟩]
        · rw [if_neg h1]
          by_cases hal : a = l
          · subst hal
            rw [if_pos ⟨.inl rfl, hk, hl⟩]
            simp [hl]
          · have h2 : ¬ ((a = l ∨ a ∈ ls) ∧ a ∉ keep ∧ a < s.lengths.length) := by
              rintro ⟨h3 | h3, h4⟩
              · exact hal h3
              · exact h1 ⟨h3, h4⟩
            rw [if_neg h2, List.getElem?_set_ne (Ne.symm hal)]

/-- `only` keeps the given lengths and sets all others to zero. -/
theorem only_spec (keep : List Label) (s : SLengths T) (h : ∀ x ∈ s.lengths, 0 ≤ x) :
    ∃ s', s.only keep = .ok s' ∧ s'.stack = [] ∧ s'.lengths.length = s.lengths.length ∧
      ∀ a < s.lengths.length, s'.lengths[a]? = if a ∈ keep then s.lengths[a]? else some 0 := by
  obtain ⟨s', g1, g2, g3, g4⟩ := onlyLoop_spec keep s.labels ⟨[], s.lengths⟩ (by simp [SLengths.labels])
  refine ⟨s', ?_, g2, g3, ?_⟩
  · simp only [SLengths.only, make_spec h, bind, Except.bind]; exact g1
  · intro a ha
    rw [g4]
    by_cases hk : a ∈ keep
    · simp [hk]
    · rw [if_pos ⟨by simpa [SLengths.labels] using ha, hk, ha⟩, if_neg hk]

theorem filter_range_eq (n m : ℕ) (p : ℕ → Bool) (hm : m < n) (hp : ∀ k < n, (p k = true ↔ k = m)) :
    (List.range n).filter p = [m] := by
  induction n with
  | zero => omega
  | succ n ih =>
    rw [List.range_succ, List.filter_append]
    by_cases h : m = n
    · subst h
      have h1 : (List.range m).filter p = [] := by
        rw [List.filter_eq_nil_iff]
        intro k hk
        simp at hk
        rw [hp k (by omega)]; omega
      have h2 : p m = true := (hp m (by omega)).mpr rfl
      rw [h1]; simp [h2]
    · have h2 : ¬ p n = true := by rw [hp n (by omega)]; exact fun h' => h h'.symm
      rw [ih (by omega) (fun k hk => hp k (by omega))]
      simp [h2]

/-- The positions recorded by the tracker. -/
theorem positions_eq {top : List Label} (hn : top.Nodup) : ∀ (bottom : List Label), (∀ b ∈ bottom, b ∈ top) →
    bottom.flatMap (fun b => (List.range top.length).filter (fun pos => top[pos]? = some b)) =
      bottom.map (fun b => top.idxOf b)
  | [], _ => rfl
  | b :: bs, h => by
    rw [List.flatMap_cons, positions_eq hn bs (fun x hx => h x (by simp [hx])), List.map_cons]
    have hb := h b (by simp)
    rw [filter_range_eq top.length (top.idxOf b) _ (List.idxOf_lt_length_iff.mpr hb)]
    · rfl
    · intro k hk
      simp only [decide_eq_true_eq]
      constructor
      · intro hk'
        have h1 : top[k] = b := by simpa [hk] using hk'
        rw [← h1]
        exact (List.Nodup.idxOf_getElem hn k hk).symm
      · rintro rfl
        simp [hk]

theorem samePermutation_spec (top : List Label) : ∀ (bottom : List Label) (ps : List ℕ), bottom.length = ps.length →
    (∀ p ∈ ps, p < top.length) →
    ∃ r, IET.samePermutation top bottom ps = .ok r ∧ (r = true ↔ bottom.map some = ps.map (fun p => top[p]?))
  | [], [], _, _ => ⟨true, rfl, by simp⟩
  | [], _ :: _, h, _ => by simp at h
  | _ :: _, [], h, _ => by simp at h
  | b :: bs, p :: ps, h, hp => by
    have hlt := hp p (by simp)
    have hg : top[p]? = some top[p] := List.getElem?_eq_getElem hlt
    by_cases hb : b = top[p]
    · obtain ⟨r, h1, h2⟩ := samePermutation_spec top bs ps (by simpa using h) (fun q hq => hp q (by simp [hq]))
      refine ⟨r, ?_, ?_⟩
      · simp only [IET.samePermutation, hg, ne_eq, hb, not_true_eq_false, if_false, h1]
      · rw [h2]; simp [hg, hb]
    · refine ⟨false, ?_, ?_⟩
      · simp only [IET.samePermutation, hg, ne_eq, hb, not_false_eq_true, if_true]
      · simp [hg, hb]

end

section model

variable {σ T ε : Type} [CommRing T] [LinearOrder T] [IsStrictOrderedRing T] {O : LengthsOps σ T}
  {d : ℕ} {c : T →+ (Fin d → ℚ)}

theorem similar_spec {s : SLengths T} {get : Label → M T} {a b aa bb : Label} {x y ox oy : T}
    (h1 : s.lengths[a]? = some x) (h2 : s.lengths[b]? = some y) (h3 : get aa = .ok ox) (h4 : get bb = .ok oy)
    (hx : x ≠ 0) (hy : y ≠ 0) :
    s.similar a b get aa bb = .ok (decide (x * oy = y * ox)) := by
  simp only [SLengths.similar, SLengths.at', h1, h2, h3, h4, bind, Except.bind, hx, hy, false_and, if_false, pure, Except.pure]

theorem allSimilar_spec (H : LawfulLengths O c ε) {s : σ} (hi : H.inv s) (lengths : SLengths T) (len : Label → T) :
    ∀ (l : List Label), (∀ a ∈ l, H.dom s a) → (∀ a ∈ l, lengths.lengths[a]? = some (len a) ∧ 0 < len a) →
    ∃ r, IET.allSimilar O lengths s l = .ok r ∧ (r = true → ∀ a ∈ l, ∀ b ∈ l, len a * H.len s b = len b * H.len s a)
  | [], _, _ => ⟨true, rfl, by simp⟩
  | [a], _, _ => ⟨true, rfl, by simp⟩
  | a :: b :: l, h1, h2 => by
    obtain ⟨r, g1, g2⟩ := allSimilar_spec H hi lengths len (b :: l) (fun x hx => h1 x (List.mem_cons_of_mem _ hx))
      (fun x hx => h2 x (List.mem_cons_of_mem _ hx))
    obtain ⟨ha, ha'⟩ := h2 a (by simp)
    obtain ⟨hb, hb'⟩ := h2 b (by simp)
    have hs := similar_spec (get := fun l => O.get l s) ha hb (H.get_spec s a hi (h1 a (by simp)))
      (H.get_spec s b hi (h1 b (by simp))) ha'.ne' hb'.ne'
    simp only [IET.allSimilar, hs, bind, Except.bind, decide_eq_true_eq]
    by_cases hab : len a * H.len s b = len b * H.len s a
    · refine ⟨r, by rw [if_pos hab, g1], ?_⟩
      intro hr
      have g3 := g2 hr
      have key : ∀ x ∈ b :: l, len a * H.len s x = len x * H.len s a := by
        intro x hx
        have h5 := g3 x hx b (by simp)
        have : len b * (len a * H.len s x) = len b * (len x * H.len s a) := by
          linear_combination len x * hab - len a * h5
        exact mul_left_cancel₀ hb'.ne' this
      intro x hx y hy
      rcases List.mem_cons.mp hx with hx1 | hx1
      · rcases List.mem_cons.mp hy with hy1 | hy1
        · rw [hx1, hy1]
        · rw [hx1]; exact key y hy1
      · rcases List.mem_cons.mp hy with hy1 | hy1
        · rw [hy1]; exact (key x hx1).symm
        · exact g3 x hx1 y hy1
    · refine ⟨false, by rw [if_neg hab]; rfl, by simp⟩

/-- `X` has the same combinatorics as `E₀` (the permutations agree position by position), and the lengths of the
*labels* are proportional. -/
structure LabelSimilar (E₀ X : AIET T) : Prop where
  length : X.top.length = E₀.top.length
  perm : X.bottom.map some = E₀.bottom.map (fun b => X.top[E₀.top.idxOf b]?)
  similar : ∀ a ∈ E₀.top, ∀ b ∈ E₀.top, E₀.len a * X.len b = E₀.len b * X.len a

/-- What the tracker remembers: an earlier state `E₀` of which the current state is obtained as `R` says, up to
a swap; or the tracker remembers a state with more intervals. -/
def LawfulLengths.TrackInv (H : LawfulLengths O c ε) (R : AIET T → AIET T → Prop) (E : IET T) (s : σ) : Prop :=
  E.tracker.ttl = 0 ∨ ∃ E₀ E₁ : AIET T, E₀.Valid ∧ E₀.top = E.tracker.top ∧
    E.tracker.bottom = E₀.bottom.map (fun b => E₀.top.idxOf b) ∧
    (∀ a ∈ E₀.top, H.dom s a ∧ E.tracker.lengths.lengths[a]? = some (E₀.len a)) ∧
    ((R E₀ E₁ ∧ (E₁.Agree (H.abs E s) ∨ E₁.Agree (H.abs E s).inv)) ∨ E.top.length < E₀.top.length)

theorem LawfulLengths.TrackInv.weaken {H : LawfulLengths O c ε} {E : IET T} {s : σ}
    (h : H.TrackInv (Relation.TransGen RauzyStep) E s) : H.TrackInv Steps E s := by
  rcases h with h | ⟨E₀, E₁, h1, h2, h3, h4, h5⟩
  · exact .inl h
  · refine .inr ⟨E₀, E₁, h1, h2, h3, h4, ?_⟩
    rcases h5 with ⟨h5, h6⟩ | h5
    · exact .inl ⟨h5.to_reflTransGen, h6⟩
    · exact .inr h5

theorem trackerReset_spec (H : LawfulLengths O c ε) {E : IET T} {s : σ} (h : H.Ok E s) :
    ∃ t, E.trackerReset O s = .ok t ∧ H.TrackInv Steps { E with tracker := t } s := by
  obtain ⟨f, h1, h2, h3, h4⟩ := H.forget_spec s h.inv h.nonneg
  obtain ⟨f', g1, g2, g3, g4⟩ := only_spec E.top f h3
  have hv := h.valid
  refine ⟨⟨E.tracker.periodBound * 2 % 2 ^ 64, E.tracker.periodBound, E.top,
    E.bottom.flatMap (fun b => (List.range E.top.length).filter (fun pos => E.top[pos]? = some b)), f'⟩, ?_, ?_⟩
  · simp only [IET.trackerReset, h1, g1, bind, Except.bind, pure, Except.pure]
  · refine .inr ⟨H.abs E s, H.abs E s, hv, rfl, ?_, ?_, .inl ⟨.refl, .inl (AIET.Agree.refl _)⟩⟩
    · exact positions_eq hv.nodup E.bottom (fun b hb => hv.perm.mem_iff.mp hb)
    · intro a ha
      refine ⟨h.dom a ha, ?_⟩
      have hfa := h4 a (h.dom a ha)
      have hlt : a < f.lengths.length := by
        by_contra hc
        rw [List.getElem?_eq_none (not_lt.mp hc)] at hfa; cases hfa
      rw [g4 a hlt, if_pos (show a ∈ E.top from ha), hfa]; rfl

/-- The tracker has found an earlier state. -/
def LawfulLengths.LoopFound (H : LawfulLengths O c ε) (E : IET T) (s : σ) : Prop :=
  ∃ E₀ E₁ : AIET T, E₀.Valid ∧ Relation.TransGen RauzyStep E₀ E₁ ∧
    (E₁.Agree (H.abs E s) ∨ E₁.Agree (H.abs E s).inv) ∧ LabelSimilar E₀ (H.abs E s) ∧ E₀.top = E.tracker.top

theorem LawfulLengths.TrackInv.congr {H : LawfulLengths O c ε} {R : AIET T → AIET T → Prop} {E E' : IET T} {s : σ}
    (h : H.TrackInv R E s) (h1 : E'.top = E.top) (h2 : E'.bottom = E.bottom) (h3 : E'.tracker.top = E.tracker.top)
    (h4 : E'.tracker.bottom = E.tracker.bottom) (h5 : E'.tracker.lengths = E.tracker.lengths)
    (h6 : E.tracker.ttl = 0 → E'.tracker.ttl = 0) : H.TrackInv R E' s := by
  rcases h with h | ⟨E₀, E₁, g1, g2, g3, g4, g5⟩
  · exact .inl (h6 h)
  · refine .inr ⟨E₀, E₁, g1, by rw [g2, h3], by rw [h4, g3], by rw [h5]; exact g4, ?_⟩
    rw [h1]
    have : H.abs E' s = H.abs E s := by simp [LawfulLengths.abs, h1, h2]
    rw [this]; exact g5

theorem trackerLoop_spec (H : LawfulLengths O c ε) {E : IET T} {s : σ} (h : H.Ok E s)
    (ht : H.TrackInv (Relation.TransGen RauzyStep) E s) :
    ∃ r t, E.trackerLoop O s = .ok (r, { E with tracker := t }) ∧
      (r = false → H.TrackInv Steps { E with tracker := t } s) ∧
      (r = true → H.TrackInv (Relation.TransGen RauzyStep) { E with tracker := t } s ∧
        H.LoopFound { E with tracker := t } s) := by
  unfold IET.trackerLoop
  by_cases h0 : E.tracker.ttl = 0
  · obtain ⟨t, h1, h2⟩ := trackerReset_spec H h
    refine ⟨false, t, ?_, fun _ => h2, by simp⟩
    simp only [h0, if_true, h1, bind, Except.bind, pure, Except.pure]
  · rcases ht with ht | ⟨E₀, E₁, g1, g2, g3, g4, g5⟩
    · exact absurd ht h0
    · have hinv : H.TrackInv (Relation.TransGen RauzyStep) { E with tracker := { E.tracker with ttl := E.tracker.ttl - 1 } } s :=
        .inr ⟨E₀, E₁, g1, g2, g3, g4, g5⟩
      simp only [h0, if_false, IET.size]
      by_cases hs : E.top.length = E.tracker.top.length
      · have hlen : E.top.length = E₀.top.length := by rw [hs, g2]
        have hperm : E.bottom.length = E.top.length := h.valid.perm.length_eq
        obtain ⟨r, e1, e2⟩ := samePermutation_spec E.top E.bottom E.tracker.bottom
          (by rw [g3, List.length_map, g1.perm.length_eq, hperm, hlen]) (by
            rw [g3]
            intro p hp
            obtain ⟨b, hb, rfl⟩ := List.mem_map.mp hp
            rw [hlen]
            exact List.idxOf_lt_length_iff.mpr (g1.perm.mem_iff.mp hb))
        simp only [hs, ne_eq, not_true_eq_false, if_false, e1, bind, Except.bind, pure, Except.pure]
        by_cases hr : r = true
        · subst hr
          have e3 := e2.mp rfl
          obtain ⟨r', f1, f2⟩ := allSimilar_spec H h.inv E.tracker.lengths E₀.len E.tracker.top
            (fun a ha => (g4 a (g2 ▸ ha)).1) (fun a ha => ⟨(g4 a (g2 ▸ ha)).2, g1.pos a (g2 ▸ ha)⟩)
          simp only [f1, Bool.not_true, Bool.false_eq_true, if_false]
          refine ⟨r', _, rfl, fun _ => hinv.weaken, fun hr' => ⟨hinv, E₀, E₁, g1, ?_⟩⟩
          rcases g5 with ⟨g5, g6⟩ | g5
          · refine ⟨g5, g6, ⟨hlen, ?_, ?_⟩, g2⟩
            · simp only [LawfulLengths.abs]
              rw [e3, g3, List.map_map]; rfl
            · rw [g2]; exact f2 hr'
          · omega
        · simp only [Bool.not_eq_true] at hr
          subst hr
          exact ⟨false, _, rfl, fun _ => hinv.weaken, by simp⟩
      · simp only [ne_eq, hs, not_false_eq_true, if_true]
        exact ⟨false, _, rfl, fun _ => hinv.weaken, by simp⟩

theorem trackStep_spec (H : LawfulLengths O c ε) (saf0 : Bool) {E : IET T} {s : σ} (h : H.Ok E s) (hc : H.CacheOk E s)
    (ht : H.TrackInv (Relation.TransGen RauzyStep) E s) :
    ∃ r E', E.trackStep O saf0 s = .ok (r, E') ∧ E'.top = E.top ∧ E'.bottom = E.bottom ∧ E'.swapped = E.swapped ∧
      H.CacheOk E' s ∧ (r = false → H.TrackInv Steps E' s) ∧
      (r = true → saf0 = true ∧ H.TrackInv (Relation.TransGen RauzyStep) E' s ∧ H.LoopFound E' s) := by
  unfold IET.trackStep
  cases saf0 with
  | false => exact ⟨false, E, rfl, rfl, rfl, rfl, hc, fun _ => ht.weaken, by simp⟩
  | true =>
    simp only [if_true, saf_spec H h hc, bind, Except.bind]
    have hC : H.CacheOk { E with safCache := some (safList c (H.unswapped E s)) } s := LawfulLengths.CacheOk.some
    have hT : H.TrackInv (Relation.TransGen RauzyStep) { E with safCache := some (safList c (H.unswapped E s)) } s := ht
    by_cases h0 : (safList c (H.unswapped E s)).length = 0
    · simp only [h0, if_true, pure, Except.pure]
      exact ⟨false, _, rfl, rfl, rfl, rfl, hC, fun _ => hT.weaken, by simp⟩
    · simp only [h0, if_false]
      obtain ⟨r, t, g1, g2, g3⟩ := trackerLoop_spec H (h.congr (E' := { E with safCache := some (safList c (H.unswapped E s)) }) rfl rfl) hT
      refine ⟨r, _, g1, rfl, rfl, rfl, ?_, g2, fun hr => ⟨trivial, (g3 hr).1, (g3 hr).2⟩⟩
      intro v hv
      exact hC v hv

end model

end Verif
