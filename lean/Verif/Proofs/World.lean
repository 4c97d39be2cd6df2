import Verif.Proofs.Induce
import Verif.Model.World

/-!
# Histories of API calls
-/

namespace Verif

set_option linter.unusedSectionVars false

section model

variable {σ T ε : Type} [CommRing T] [LinearOrder T] [IsStrictOrderedRing T] {O : LengthsOps σ T}
  {d : ℕ} {c : T →+ (Fin d → ℚ)}

/-- Another IET is not disturbed when its lengths do not change. -/
theorem LawfulLengths.Good.frame {H : LawfulLengths O c ε} {F G : IET T} {s s' : σ} (h : H.Good F s) (h' : H.Ok G s')
    (hd : H.dom s' = H.dom s) (hl : ∀ a ∈ F.top, H.len s' a = H.len s a) : H.Good F s' := by
  have hag : (H.abs F s).Agree (H.abs F s') := ⟨rfl, rfl, fun a ha => (hl a ha).symm⟩
  refine ⟨⟨h'.inv, h'.stack, by rw [hd]; exact h.ok.dom, hag.valid h.ok.valid, h'.nonneg⟩, ?_, ?_⟩
  · intro v hv
    rw [h.cache v hv]
    apply safList_congr
    intro φ ψ
    unfold LawfulLengths.unswapped
    split
    · exact (hag.inv h.ok.valid).saf h.ok.valid.inv φ ψ
    · exact hag.saf h.ok.valid φ ψ
  · rcases h.track with h1 | ⟨E₀, E₁, g1, g2, g3, g4, g5⟩
    · exact .inl h1
    · refine .inr ⟨E₀, E₁, g1, g2, g3, by rw [hd]; exact g4, ?_⟩
      rcases g5 with ⟨g5, g6 | g6⟩ | g5
      · exact .inl ⟨g5, .inl (g6.trans hag)⟩
      · exact .inl ⟨g5, .inr (g6.trans (hag.inv h.ok.valid))⟩
      · exact .inr g5

theorem LawfulLengths.Good.fresh {H : LawfulLengths O c ε} {top bottom : List Label} {s : σ} (h : H.Ok (IET.fresh top bottom) s) :
    H.Good (IET.fresh top bottom) s := ⟨h, .none rfl, .inl rfl⟩

theorem LawfulLengths.Good.swap {H : LawfulLengths O c ε} {E : IET T} {s : σ} (h : H.Good E s) : H.Good E.swap s :=
  ⟨h.ok.swap, h.cache.swap, h.track.swap h.ok.valid⟩

theorem LawfulLengths.Good.setCache {H : LawfulLengths O c ε} {E : IET T} {s : σ} (h : H.Good E s) :
    H.Good { E with safCache := some (safList c (H.unswapped E s)) } s :=
  ⟨h.ok.congr rfl rfl, .some, h.track.congr rfl rfl rfl rfl rfl id⟩

theorem LawfulLengths.Good.zorich {H : LawfulLengths O c ε} {E E' : IET T} {s s' : σ} {r : Bool} (h : H.Good E s)
    (hz : ZorichSpec H E s r E' s') : H.Good E' s' := by
  have hm : Moves H (E, s) (E', s') := .single (.top h.ok hz)
  exact ⟨hz.ok, hm.cache h.ok h.cache hz.cache, h.track.steps_keep h.ok.valid hz.dom hz.tracker hz.run.steps⟩

/-- What an operation does to the IET it is called on, described without the code. -/
inductive Effect : Bool → AIET T → List (AIET T) → AIET T → Prop
  | steps {A B} : Steps A B → Effect false A [] B
  | swap {A} : Effect true A [] A.inv
  | cut {A B l r k} : Steps A B → IsCut B l r k → Effect false A [r] l
  | merge {A B C} : Steps A B → MergeTop B C → Effect false A [] C

theorem IsCut.disjoint {A l r : AIET T} {k : ℕ} (hA : A.Valid) (h : IsCut A l r k) :
    (l.top ++ r.top).Perm A.top ∧ (∀ a ∈ l.top, a ∉ r.top) := by
  obtain ⟨h1, _, _, _, h5, _⟩ := h.facts hA
  exact ⟨by rw [h1], h5⟩

/-- Good after an operation. -/
theorem Op.call_spec (H : LawfulLengths O c ε) {L : PPL} (hL : L.Lawful) (fuel : ℕ) (op : Op) (E : IET T) (s : σ) (h : H.Good E s) :
    (op.call L O fuel E s = .error .fuel ∧ ∃ i, op = .induce i (-1)) ∨
    ∃ new E' s', op.call L O fuel E s = .ok (new, E', s') ∧ H.Good E' s' ∧ (∀ R ∈ new, H.Good R s' ∧ R.swapped = false) ∧
      H.dom s' = H.dom s ∧ (∀ x, x ∉ E.top → H.len s' x = H.len s x) ∧
      Effect op.isSwap (H.abs E s) (new.map (fun R => H.abs R s')) (H.abs E' s') ∧
      E'.swapped = (op.isSwap ^^ E.swapped) := by
  cases op with
  | zorichInduction i =>
    right
    obtain ⟨r, E', s', h1, h2⟩ := zorichInduction_spec H E s h.ok
    refine ⟨[], E', s', ?_, h.zorich h2, by simp, h2.dom, ?_, .steps h2.run.steps, by simpa [Op.isSwap] using h2.swapped⟩
    · simp only [Op.call, h1, bind, Except.bind, pure, Except.pure]
    · intro x hx; exact h2.frame x (fun hm => hx (List.mem_of_mem_take hm))
  | swap i =>
    right
    exact ⟨[], E.swap, s, rfl, h.swap, by simp, rfl, fun _ _ => rfl, .swap, by simp [Op.isSwap]⟩
  | reduce i =>
    right
    have hv := h.ok.valid
    rcases reduce_spec H E s h.ok with ⟨hr, hirr⟩ | ⟨k, hr, hcut⟩
    · refine ⟨[], E, s, ?_, h, by simp, rfl, fun _ _ => rfl, .steps .refl, by simp [Op.isSwap]⟩
      simp only [Op.call, hr, bind, Except.bind, pure, Except.pure, Option.toList]
    · have hlt : k < E.top.length := hcut.lt
      have hvl := hcut.valid_left hv
      have hvr := hcut.valid_right hv
      refine ⟨[IET.fresh (E.top.drop k) (E.bottom.drop k)],
        { E with top := E.top.take k, bottom := E.bottom.take k, safCache := none }, s, ?_, ?_, ?_, rfl, fun _ _ => rfl,
        .cut .refl hcut, by simp [Op.isSwap]⟩
      · simp only [Op.call, hr, bind, Except.bind, pure, Except.pure, Option.toList]
      · exact ⟨⟨h.ok.inv, h.ok.stack, fun a ha => h.ok.dom a (List.mem_of_mem_take ha), hvl, h.ok.nonneg⟩, .none rfl,
          h.track.weaken.shrink (E' := { E with top := E.top.take k, bottom := E.bottom.take k, safCache := none }) hv rfl
            (by show (E.top.take k).length < E.top.length; rw [List.length_take]; omega)⟩
      · intro R hR
        simp only [List.mem_singleton] at hR
        rw [hR]
        exact ⟨.fresh ⟨h.ok.inv, h.ok.stack, fun a ha => h.ok.dom a (List.mem_of_mem_drop ha), hvr, h.ok.nonneg⟩, rfl⟩
  | induce i limit =>
    rcases induce_spec H hL fuel limit E s h with ⟨h1, h2⟩ | ⟨step, E', s', h1, h2, h3, h4, h5, h6⟩
    · left
      refine ⟨?_, i, by rw [h2]⟩
      simp only [Op.call, h1, bind, Except.bind]
    · right
      refine ⟨step.additional.toList, E', s', ?_, h3, ?_, h4, h5, ?_, by simpa [Op.isSwap] using h6⟩
      · simp only [Op.call, h1, bind, Except.bind, pure, Except.pure]
      · intro R hR
        cases h2 with
        | cylinder => simp at hR
        | auto => simp at hR
        | finish _ _ hf =>
          cases hf with
          | separating _ hg hs _ _ => simp at hR; rw [hR]; exact ⟨hg, hs⟩
          | nonSeparating => simp at hR
          | boshernitzan => simp at hR
          | limit => simp at hR
      · cases h2 with
        | cylinder => exact .steps .refl
        | auto _ _ hm _ _ => exact .steps hm.steps
        | @finish E₁ _ _ _ _ hm hf =>
          cases hf with
          | separating hcut _ _ _ _ => exact .cut hm.steps hcut
          | nonSeparating _ _ _ _ _ hmerge => exact .merge hm.steps hmerge
          | boshernitzan e1 e2 _ _ _ _ =>
            have : H.abs E' s' = H.abs E₁ s' := by simp [LawfulLengths.abs, e1, e2]
            rw [this]; exact .steps hm.steps
          | limit e1 e2 _ _ _ =>
            have : H.abs E' s' = H.abs E₁ s' := by simp [LawfulLengths.abs, e1, e2]
            rw [this]; exact .steps hm.steps
  | safInvariant i =>
    right
    refine ⟨[], _, s, ?_, h.setCache, by simp, rfl, fun _ _ => rfl, .steps .refl, by simp [Op.isSwap]⟩
    simp only [Op.call, safInvariant_spec H h.ok h.cache, bind, Except.bind, pure, Except.pure]
  | boshernitzanNoPeriodicTrajectory i =>
    right
    obtain ⟨b, hb, _⟩ := boshernitzanNoPeriodicTrajectory_spec H hL h.ok h.cache
    refine ⟨[], _, s, ?_, h.setCache, by simp, rfl, fun _ _ => rfl, .steps .refl, by simp [Op.isSwap]⟩
    simp only [Op.call, hb, bind, Except.bind, pure, Except.pure]

theorem Effect.labels {sw : Bool} {A B : AIET T} {new : List (AIET T)} (hA : A.Valid) (h : Effect sw A new B) :
    (∀ a ∈ B.top, a ∈ A.top) ∧ ∀ R ∈ new, (∀ a ∈ R.top, a ∈ A.top) ∧ ∀ a ∈ R.top, a ∉ B.top := by
  cases h with
  | steps h => exact ⟨fun a ha => (Steps.top_perm h).mem_iff.mp ha, by simp⟩
  | swap => exact ⟨fun a ha => hA.perm.mem_iff.mp ha, by simp⟩
  | cut h hc =>
    have hp := Steps.top_perm h
    have hv := Steps.valid hA h
    obtain ⟨h1, h2⟩ := hc.disjoint hv
    refine ⟨fun a ha => hp.mem_iff.mp (h1.mem_iff.mp (by simp [ha])), ?_⟩
    intro R hR
    simp only [List.mem_singleton] at hR
    rw [hR]
    exact ⟨fun a ha => hp.mem_iff.mp (h1.mem_iff.mp (by simp [ha])), fun a ha hb => h2 a hb ha⟩
  | merge h hm =>
    have hp := Steps.top_perm h
    refine ⟨fun a ha => hp.mem_iff.mp ?_, by simp⟩
    cases hm
    exact List.mem_cons_of_mem _ ha

/-- The invariant of worlds. -/
structure LawfulLengths.WorldOk (H : LawfulLengths O c ε) (w : World σ T) : Prop where
  good : ∀ E ∈ w.pieces, H.Good E w.lengths
  disjoint : w.pieces.Pairwise (fun E F => ∀ a ∈ E.top, a ∉ F.top)

theorem pairwise_set {α : Type} {R : α → α → Prop} (hR : ∀ a b, R a b → R b a) : ∀ {l : List α} {i : ℕ} {x y : α},
    l.Pairwise R → l[i]? = some x → (∀ z, R x z → R y z) → (l.set i y).Pairwise R
  | [], _, _, _, _, h, _ => by simp at h
  | a :: l, 0, x, y, hp, h, hxy => by
    simp at h
    subst h
    simp only [List.set_cons_zero, List.pairwise_cons] at hp ⊢
    exact ⟨fun z hz => hxy z (hp.1 z hz), hp.2⟩
  | a :: l, i + 1, x, y, hp, h, hxy => by
    simp only [List.getElem?_cons_succ] at h
    simp only [List.set_cons_succ, List.pairwise_cons] at hp ⊢
    refine ⟨fun z hz => ?_, pairwise_set hR hp.2 h hxy⟩
    rcases List.mem_or_eq_of_mem_set hz with hz | rfl
    · exact hp.1 z hz
    · exact hR _ _ (hxy a (hR _ _ (hp.1 x (List.mem_of_getElem? h))))

theorem pairwise_getElem_ne {α : Type} {R : α → α → Prop} (hR : ∀ a b, R a b → R b a) {l : List α} (h : l.Pairwise R) {i j : ℕ}
    {x y : α} (hi : l[i]? = some x) (hj : l[j]? = some y) (hij : i ≠ j) : R x y := by
  rw [List.getElem?_eq_some_iff] at hi hj
  obtain ⟨hi, rfl⟩ := hi
  obtain ⟨hj, rfl⟩ := hj
  rcases lt_or_gt_of_ne hij with hlt | hlt
  · exact List.pairwise_iff_getElem.mp h i j hi hj hlt
  · exact hR _ _ (List.pairwise_iff_getElem.mp h j i hj hi hlt)

theorem mem_set_iff_ne {α : Type} {l : List α} {i : ℕ} {y z : α} (h : z ∈ l.set i y) : z = y ∨ ∃ j, j ≠ i ∧ l[j]? = some z := by
  obtain ⟨j, hj⟩ := List.getElem?_of_mem h
  by_cases hij : i = j
  · subst hij
    rw [List.getElem?_set_self'] at hj
    cases hl : l[i]? with
    | none => simp [hl] at hj
    | some w => simp [hl] at hj; exact .inl hj.symm
  · rw [List.getElem?_set_ne hij] at hj
    exact .inr ⟨j, Ne.symm hij, hj⟩

/-- An operation in a world. -/
structure ExecSpec (H : LawfulLengths O c ε) (op : Op) (w w' : World σ T) : Prop where
  ok : H.WorldOk w'
  dom : H.dom w'.lengths = H.dom w.lengths
  skip : w.pieces[op.index]? = none → w' = w
  others : ∀ j F, j ≠ op.index → w.pieces[j]? = some F → w'.pieces[j]? = some F ∧ ∀ a ∈ F.top, H.len w'.lengths a = H.len w.lengths a
  effect : ∀ E, w.pieces[op.index]? = some E → ∃ new E', w'.pieces = w.pieces.set op.index E' ++ new ∧
    Effect op.isSwap (H.abs E w.lengths) (new.map (fun R => H.abs R w'.lengths)) (H.abs E' w'.lengths) ∧
    (∀ R ∈ new, R.swapped = false) ∧
    E'.swapped = (op.isSwap ^^ E.swapped)

theorem Op.exec_spec (H : LawfulLengths O c ε) {L : PPL} (hL : L.Lawful) (fuel : ℕ) (op : Op) (w : World σ T) (h : H.WorldOk w) :
    (op.exec L O fuel w = .error .fuel ∧ ∃ i, op = .induce i (-1)) ∨
    ∃ w', op.exec L O fuel w = .ok w' ∧ ExecSpec H op w w' := by
  unfold Op.exec
  cases hE : w.pieces[op.index]? with
  | none =>
    right
    exact ⟨w, rfl, h, rfl, fun _ => rfl, fun j F _ hj => ⟨hj, fun _ _ => rfl⟩, fun E hE' => by rw [hE] at hE'; cases hE'⟩
  | some E =>
    have hEm := List.mem_of_getElem? hE
    have hg := h.good E hEm
    simp only
    rcases Op.call_spec H hL fuel op E w.lengths hg with ⟨h1, h2⟩ | ⟨new, E', s', h1, h2, h3, h4, h5, h6, h7⟩
    · left; exact ⟨by rw [h1]; rfl, h2⟩
    · right
      obtain ⟨l1, l2⟩ := h6.labels hg.ok.valid
      have hsymm : ∀ E F : IET T, (∀ a ∈ E.top, a ∉ F.top) → ∀ a ∈ F.top, a ∉ E.top := fun E F h a ha hb => h a hb ha
      have hoth : ∀ j F, j ≠ op.index → w.pieces[j]? = some F → ∀ a ∈ F.top, H.len s' a = H.len w.lengths a := by
        intro j F hj hF a ha
        exact h5 a (pairwise_getElem_ne hsymm h.disjoint hF hE hj a ha)
      refine ⟨⟨w.pieces.set op.index E' ++ new, s'⟩, by rw [h1]; rfl, ⟨?_, ?_⟩, h4, (fun h => by rw [hE] at h; cases h), ?_, ?_⟩
      · intro F hF
        simp only [List.mem_append] at hF
        rcases hF with hF | hF
        · rcases mem_set_iff_ne hF with rfl | ⟨j, hj, hF⟩
          · exact h2
          · exact (h.good F (List.mem_of_getElem? hF)).frame h2.ok h4 (hoth j F hj hF)
        · exact (h3 F hF).1
      · rw [List.pairwise_append]
        refine ⟨pairwise_set hsymm h.disjoint hE (fun z hz a ha => hz a (l1 a ha)), ?_, ?_⟩
        · -- at most one new IET
          cases h6' : new with
          | nil => simp
          | cons R Rs =>
            rw [h6'] at h6
            cases Rs with
            | nil => simp
            | cons R' Rs => generalize op.isSwap = sw at h6; simp only [List.map_cons] at h6; cases h6
        · intro F hF R hR a ha hb
          have hl := l2 (H.abs R s') (List.mem_map_of_mem hR)
          rcases mem_set_iff_ne hF with rfl | ⟨j, hj, hF⟩
          · exact hl.2 a hb ha
          · exact pairwise_getElem_ne hsymm h.disjoint hF hE hj a ha (hl.1 a hb)
      · intro j F hj hF
        refine ⟨?_, hoth j F hj hF⟩
        have hlt : j < w.pieces.length := by
          rw [List.getElem?_eq_some_iff] at hF; exact hF.1
        rw [List.getElem?_append_left (by simpa using hlt), List.getElem?_set_ne (Ne.symm hj)]
        exact hF
      · intro E₂ hE₂
        rw [hE] at hE₂
        cases hE₂
        exact ⟨new, E', rfl, h6, fun R hR => (h3 R hR).2, h7⟩

end model

end Verif
