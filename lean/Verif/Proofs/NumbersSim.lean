import Verif.Proofs.Numbers
import Verif.Proofs.Match

/-!
# The same lengths, written with other numbers in another implementation
-/

namespace Verif

set_option linter.unusedSectionVars false

variable {σ σ' T T' ε ε' : Type} [CommRing T] [LinearOrder T] [IsStrictOrderedRing T] [CommRing T'] [LinearOrder T'] [IsStrictOrderedRing T']
  {O : LengthsOps σ T} {O' : LengthsOps σ' T'} {d d' : ℕ} {c : T →+ (Fin d → ℚ)} {c' : T' →+ (Fin d' → ℚ)} {φ : NumberMap T T'}

theorem RelM.trans {α β γ : Type} {R : α → β → Prop} {S : β → γ → Prop} {x : M α} {y : M β} {z : M γ} (h : RelM R x y) (h' : RelM S y z) :
    RelM (fun a c => ∃ b, R a b ∧ S b c) x z := by
  cases x with
  | error e => cases y with
    | ok b => exact h.elim
    | error e' => cases z with
      | ok c => exact h'.elim
      | error e'' => exact (show e = e' from h).trans h'
  | ok a => cases y with
    | error e' => exact h.elim
    | ok b => cases z with
      | error e'' => exact h'.elim
      | ok c => exact ⟨b, h, h'⟩

/-- Two IETs in the same state whose lengths are the same numbers up to the translation. -/
def Num (φ : NumberMap T T') (H : LawfulLengths O c ε) (H' : LawfulLengths O' c' ε') (rel : ε → ε' → Prop) (E : IET T) (s : σ) (F : IET T') (t : σ') : Prop :=
  ∃ G : IET T', Alike (H.renumber φ c') (Relation.TransGen RauzyStep) (E.renumber φ) G s ∧ Sim (H.renumber φ c') H' rel G s F t

section

variable {H : LawfulLengths O c ε} {H' : LawfulLengths O' c' ε'} {rel : ε → ε' → Prop} {E : IET T} {F : IET T'} {s : σ} {t : σ'}

theorem Num.top (h : Num φ H H' rel E s F t) : E.top = F.top := by
  obtain ⟨G, h1, h2⟩ := h
  exact h1.top.trans h2.same.top

theorem Num.bottom (h : Num φ H H' rel E s F t) : E.bottom = F.bottom := by
  obtain ⟨G, h1, h2⟩ := h
  exact h1.bottom.trans h2.same.bottom

theorem Num.swapped (h : Num φ H H' rel E s F t) : E.swapped = F.swapped := by
  obtain ⟨G, h1, h2⟩ := h
  exact h1.swapped.trans h2.same.swapped

theorem Num.ext (h : Num φ H H' rel E s F t) : rel (H.ext s) (H'.ext t) := by
  obtain ⟨G, h1, h2⟩ := h
  exact h2.ext

theorem Num.len (h : Num φ H H' rel E s F t) {a : Label} (ha : a ∈ E.top) : φ.map (H.len s a) = H'.len t a := by
  obtain ⟨G, h1, h2⟩ := h
  exact h2.len a (h1.top ▸ ha)

theorem Num.ok (h : Num φ H H' rel E s F t) : H.Ok E s := by
  obtain ⟨G, h1, h2⟩ := h
  have h3 := h1.okE
  refine ⟨h3.inv, h3.stack, h3.dom, ⟨h3.valid.ne_nil, h3.valid.nodup, h3.valid.perm, fun a ha => ?_⟩, fun a ha => ?_⟩
  · have : 0 < φ.map (H.len s a) := h3.valid.pos a ha
    rw [← map_zero φ.map] at this
    exact φ.mono.lt_iff_lt.1 this
  · have : 0 ≤ φ.map (H.len s a) := h3.nonneg a ha
    rw [← map_zero φ.map] at this
    exact φ.mono.le_iff_le.1 this

theorem Num.ok' (h : Num φ H H' rel E s F t) : H'.Ok F t := by
  obtain ⟨G, h1, h2⟩ := h
  exact h2.ok'

theorem Num.swap (h : Num φ H H' rel E s F t) : Num φ H H' rel E.swap s F.swap t := by
  obtain ⟨G, h1, h2⟩ := h
  exact ⟨G.swap, h1.swap, h2.swap⟩

theorem Num.fresh {top bottom : List Label} (h : H.Ok (IET.fresh top bottom) s) (h' : H'.Ok (IET.fresh top bottom) t)
    (hl : ∀ a ∈ top, φ.map (H.len s a) = H'.len t a) (hr : rel (H.ext s) (H'.ext t)) : Num φ H H' rel (IET.fresh top bottom) s (IET.fresh top bottom) t :=
  ⟨IET.fresh top bottom, Alike.fresh (h.renumber φ c'), h.renumber φ c', h', IET.Same.refl _, hl, .inl rfl, hr⟩

/-- Lengths of other labels have changed. -/
theorem Num.frame {s' : σ} {t' : σ'} (h : Num φ H H' rel E s F t) {E₁ : IET T} {F₁ : IET T'} (ho : H.Ok E₁ s') (ho' : H'.Ok F₁ t')
    (hd : H.dom s' = H.dom s) (hd' : H'.dom t' = H'.dom t) (hl : ∀ a ∈ E.top, H.len s' a = H.len s a)
    (hl' : ∀ a ∈ F.top, H'.len t' a = H'.len t a) (hr : rel (H.ext s') (H'.ext t')) : Num φ H H' rel E s' F t' := by
  obtain ⟨G, h1, h2⟩ := h
  have hG : (H.renumber φ c').Good G s' := h1.good.frame (ho.renumber φ c') hd
    (fun a ha => congrArg φ.map (hl a (by rw [show E.top = G.top from h1.top]; exact ha)))
  refine ⟨G, h1.frame hG hd (fun a ha => congrArg φ.map (hl a (by rw [show E.top = G.top from h1.top]; exact ha))), hG.ok,
    ⟨ho'.inv, ho'.stack, by rw [hd']; exact h2.ok'.dom, AIET.Agree.valid (E := H'.abs F t) ⟨rfl, rfl, fun a ha => (hl' a ha).symm⟩ h2.ok'.valid, ho'.nonneg⟩,
    h2.same, ?_, h2.sub, hr⟩
  intro a ha
  have h3 : φ.map (H.len s a) = H'.len t a := h2.len a ha
  show φ.map (H.len s' a) = H'.len t' a
  rw [hl a (by rw [show E.top = G.top from h1.top]; exact ha), hl' a (h2.same.top ▸ ha), h3]

variable (hc : ∀ x, c x = 0 → x = 0) (hc' : ∀ x, c' x = 0 → x = 0) (hrel : ∀ ctx a b e e', rel e e' → rel (H.mv ctx a b e) (H'.mv ctx a b e'))

include hc hc' in
theorem Num.safInvariant (h : Num φ H H' rel E s F t) :
    RelM (fun x y => ((∀ a ∈ x.1, a = 0) ↔ ∀ a ∈ y.1, a = 0) ∧ Num φ H H' rel x.2 s y.2 t) (E.safInvariant O s) (F.safInvariant O' t) := by
  obtain ⟨G, h1, h2⟩ := h
  refine ((safInvariant_renumber φ E s).trans ((h1.safInvariant (H.renumber_coordinates φ hc c') hc').trans h2.safInvariant)).mono ?_
  rintro ⟨v, E'⟩ ⟨w, F'⟩ ⟨⟨v₁, E₁⟩, ⟨e1, e2⟩, ⟨v₂, E₂⟩, ⟨e3, e4⟩, e5, e6⟩
  simp only at e1 e2 e3 e4 e5 e6
  subst e1 e2 e5
  exact ⟨e3, E₂, e4, e6⟩

include hc hc' in
theorem Num.bosh {L : PPL} (hL : L.Lawful) (h : Num φ H H' rel E s F t) :
    RelM (fun x y => x.1 = y.1 ∧ Num φ H H' rel x.2 s y.2 t) (E.boshernitzanNoPeriodicTrajectory L O s) (F.boshernitzanNoPeriodicTrajectory L O' t) := by
  obtain ⟨G, h1, h2⟩ := h
  refine ((bosh_renumber φ L E s).trans ((h1.bosh (H.renumber_coordinates φ hc c') hc' hL).trans (h2.bosh L))).mono ?_
  rintro ⟨v, E'⟩ ⟨w, F'⟩ ⟨⟨v₁, E₁⟩, ⟨e1, e2⟩, ⟨v₂, E₂⟩, ⟨e3, e4⟩, e5, e6⟩
  simp only at e1 e2 e3 e4 e5 e6
  subst e1 e2 e3 e5
  exact ⟨rfl, E₂, e4, e6⟩

include hrel in
theorem Num.zorich (h : Num φ H H' rel E s F t) :
    RelM (fun x y => x.1 = y.1 ∧ Num φ H H' rel x.2.1 x.2.2 y.2.1 y.2.2) (E.zorichInduction O s) (F.zorichInduction O' t) := by
  obtain ⟨G, h1, h2⟩ := h
  obtain ⟨r, E₁, G₁, s₁, g1, g2, g3⟩ := h1.zorich' (f := O.coefficients)
  have g4 : RelM (fun x y => x = (r, E₁, s₁) ∧ y = (r, G₁, s₁)) ((E.renumber φ).zorichInduction (O.renumber φ) s)
      (G.zorichInduction ((O.renumber φ).rebase (renumberCoefficients φ O c')) s) := by
    rw [g2, show (E.renumber φ).zorichInduction (O.renumber φ) s = _ from g1]
    exact ⟨rfl, rfl⟩
  refine ((zorich_renumber φ E s).trans (g4.trans (h2.zorich hrel))).mono ?_
  rintro ⟨v, E', s'⟩ ⟨w, F', t'⟩ ⟨⟨v₁, E₁, s₁⟩, ⟨e1, e2, e3⟩, ⟨v₂, E₂, s₂⟩, ⟨e4, e5⟩, e6, e7⟩
  simp only at e1 e2 e3 e4 e5 e6 e7
  subst e1 e2 e3 e6
  cases e4
  cases e5
  exact ⟨rfl, _, g3, e7⟩

theorem Num.reduce (h : Num φ H H' rel E s F t) :
    RelM (fun x y => y.1 = x.1.map (IET.renumber φ) ∧ (∀ R ∈ x.1, Num φ H H' rel R s (R.renumber φ) t) ∧ Num φ H H' rel x.2 s y.2 t) (E.reduce O s) (F.reduce O' t) := by
  obtain ⟨G, h1, h2⟩ := h
  have g4 : RelM (fun x y => x.1 = y.1 ∧ (∀ R ∈ x.1, Alike (H.renumber φ c') (Relation.TransGen RauzyStep) R R s) ∧
      Alike (H.renumber φ c') (Relation.TransGen RauzyStep) x.2 y.2 s) ((E.renumber φ).reduce (O.renumber φ) s)
      (G.reduce ((O.renumber φ).rebase (renumberCoefficients φ O c')) s) := by
    rcases h1.weaken.reduce (f := O.coefficients) with ⟨g1, g2⟩ | ⟨R, E₁, G₁, g1, g2, g3, g5⟩
    · rw [g2, show (E.renumber φ).reduce (O.renumber φ) s = _ from g1]
      exact ⟨rfl, fun R hR => by simp at hR, h1⟩
    · rw [g2, show (E.renumber φ).reduce (O.renumber φ) s = _ from g1]
      refine ⟨rfl, fun R' hR => ?_, g3⟩
      simp only [Option.mem_def, Option.some.injEq] at hR
      rw [← hR]; exact g5
  refine ((reduce_renumber φ E s).trans (g4.trans h2.reduce)).mono ?_
  rintro ⟨v, E'⟩ ⟨w, F'⟩ ⟨⟨v₁, E₁⟩, ⟨e1, e2⟩, ⟨v₂, E₂⟩, ⟨e3, e4, e4'⟩, e5, e6, e7⟩
  simp only at e1 e2 e3 e4 e5 e6 e7
  subst e2 e3 e6
  refine ⟨e1, fun R hR => ?_, E₂, e4', e7⟩
  have hm : R.renumber φ ∈ v₁ := by rw [e1]; exact Option.mem_map_of_mem _ hR
  exact ⟨R.renumber φ, e4 _ hm, e5 _ hm⟩

include hc hc' hrel in
theorem Num.induce {L : PPL} (hL : L.Lawful) (fuel : ℕ) (limit : ℤ) (h : Num φ H H' rel E s F t) :
    RelM (fun x y => y.1 = x.1.renumber φ ∧ (∀ R ∈ x.1.additional, Num φ H H' rel R x.2.2 (R.renumber φ) y.2.2) ∧ Num φ H H' rel x.2.1 x.2.2 y.2.1 y.2.2)
      (E.induce L O fuel limit s) (F.induce L O' fuel limit t) := by
  obtain ⟨G, h1, h2⟩ := h
  refine ((induce_renumber φ L fuel limit E s).trans ((h1.induce (H.renumber_coordinates φ hc c') hc' hL fuel limit).trans
    (h2.induce hrel L fuel limit h1.good))).mono ?_
  rintro ⟨v, E', s'⟩ ⟨w, F', t'⟩ ⟨⟨v₁, E₁, s₁⟩, ⟨e1, e2, e3⟩, ⟨v₂, E₂, s₂⟩, ⟨e4, e5, e6, e7⟩, e8, e9, e10⟩
  simp only at e1 e2 e3 e4 e5 e6 e7 e8 e9 e10
  subst e2 e3 e4 e5 e8
  refine ⟨e1, fun R hR => ?_, E₂, e7, e10⟩
  have hm : R.renumber φ ∈ v₁.additional := by rw [e1]; exact Option.mem_map_of_mem _ hR
  exact ⟨R.renumber φ, e6 _ hm, e9 _ hm⟩

theorem Num.noSaddle₂_aux {G : IET T'} {O₁ : LengthsOps σ T'} {ε₁ : Type} {H₁ : LawfulLengths O₁ c' ε₁} {rel : ε₁ → ε' → Prop} (h : Sim H₁ H' rel G s F t) (L : PPL) :
    G.boshernitzanNoSaddleConnection L O₁ s = F.boshernitzanNoSaddleConnection L O' t ∧
    ∀ a b, G.boshernitzanNoSaddleConnection₂ L O₁ a b s = F.boshernitzanNoSaddleConnection₂ L O' a b t := by
  have e1 : G.boshernitzanEquations O₁ s = F.boshernitzanEquations O' t := by
    rw [boshernitzanEquations_spec H₁ h.ok, boshernitzanEquations_spec H' h.ok', ← h.same.top]
    simp only [h.agree.transl h.ok.valid]
  have e2 : G.labelToCoefficients O₁ s = F.labelToCoefficients O' t := by
    rw [labelToCoefficients_spec H₁ h.ok, labelToCoefficients_spec H' h.ok', ← h.same.top]
    refine congrArg _ (List.map_congr_left (fun a ha => ?_))
    rw [h.len a ha]
  have e3 : ∀ t b m, G.translation t b m = F.translation t b m := by
    intro t b m
    simp only [IET.translation, h.same.top, h.same.bottom]
  simp only [IET.boshernitzanNoSaddleConnection, IET.boshernitzanNoSaddleConnection₂, IET.boshernitzanSaddleConnectionValues, IET.size, e1, e2, e3,
    h.same.top, h.same.bottom]
  first | exact ⟨rfl, fun _ _ => rfl⟩ | exact ⟨rfl, fun _ _ => trivial⟩ | simp

include hc hc' in
theorem Num.noSaddle {L : PPL} (hL : L.Lawful) (h : Num φ H H' rel E s F t) :
    E.boshernitzanNoSaddleConnection L O s = F.boshernitzanNoSaddleConnection L O' t ∧
    ∀ a b, E.boshernitzanNoSaddleConnection₂ L O a b s = F.boshernitzanNoSaddleConnection₂ L O' a b t := by
  obtain ⟨G, h1, h2⟩ := h
  obtain ⟨g1, g2⟩ := Num.noSaddle₂_aux h2 L
  have hf := H.renumber_coordinates φ hc c'
  refine ⟨?_, fun a b => ?_⟩
  · rw [← g1, ← h1.noSaddle hf hc' hL]; rfl
  · rw [← g2, ← h1.noSaddle₂ hf hc' hL]; rfl

include hc hc' hrel in
theorem Num.call {L : PPL} (hL : L.Lawful) (fuel : ℕ) (op : Op) (h : Num φ H H' rel E s F t) :
    RelM (fun x y => y.1 = x.1.map (IET.renumber φ) ∧ (∀ R ∈ x.1, Num φ H H' rel R x.2.2 (R.renumber φ) y.2.2) ∧ Num φ H H' rel x.2.1 x.2.2 y.2.1 y.2.2)
      (op.call L O fuel E s) (op.call L O' fuel F t) := by
  obtain ⟨G, h1, h2⟩ := h
  refine ((Op.call_renumber φ L fuel op E s).trans ((h1.call (H.renumber_coordinates φ hc c') hc' hL fuel op).trans
    (Op.call_sim hrel fuel op h2 h1.good))).mono ?_
  rintro ⟨v, E', s'⟩ ⟨w, F', t'⟩ ⟨⟨v₁, E₁, s₁⟩, ⟨e1, e2, e3⟩, ⟨v₂, E₂, s₂⟩, ⟨e4, e5, e6, e7⟩, e8, e9, e10⟩
  simp only at e1 e2 e3 e4 e5 e6 e7 e8 e9 e10
  subst e2 e3 e4 e5 e8
  refine ⟨e1, fun R hR => ?_, E₂, e7, e10⟩
  have hm : R.renumber φ ∈ v₁ := by rw [e1]; exact List.mem_map_of_mem hR
  exact ⟨R.renumber φ, e6 _ hm, e9 _ hm⟩

/-- All IETs are in the same state up to the translation. -/
structure NumWorld (φ : NumberMap T T') (H : LawfulLengths O c ε) (H' : LawfulLengths O' c' ε') (rel : ε → ε' → Prop) (w : World σ T) (w' : World σ' T') : Prop where
  ok : H.WorldOk w
  ok' : H'.WorldOk w'
  num : List.Forall₂ (fun E F => Num φ H H' rel E w.lengths F w'.lengths) w.pieces w'.pieces

include hc hc' hrel in
theorem NumWorld.exec {L : PPL} (hL : L.Lawful) (fuel : ℕ) (op : Op) {w : World σ T} {w' : World σ' T'} (h : NumWorld φ H H' rel w w') :
    RelM (NumWorld φ H H' rel) (op.exec L O fuel w) (op.exec L O' fuel w') := by
  unfold Op.exec
  have hlen := h.num.length_eq
  cases hE : w.pieces[op.index]? with
  | none =>
    have : w'.pieces[op.index]? = none := by
      rw [List.getElem?_eq_none_iff] at hE ⊢; omega
    rw [this]; exact h
  | some E =>
    have hi : op.index < w.pieces.length := (List.getElem?_eq_some_iff.1 hE).1
    have hi' : op.index < w'.pieces.length := by omega
    obtain ⟨F, hF⟩ : ∃ F, w'.pieces[op.index]? = some F := ⟨_, List.getElem?_eq_getElem hi'⟩
    have hs : Num φ H H' rel E w.lengths F w'.lengths := by
      have := (List.forall₂_iff_get.1 h.num).2 op.index hi hi'
      rw [List.get_eq_getElem, List.get_eq_getElem, (List.getElem?_eq_some_iff.1 hE).2, (List.getElem?_eq_some_iff.1 hF).2] at this
      exact this
    have hcall := hs.call hc hc' hrel hL fuel op
    have hx := Op.exec_spec H hL fuel op w h.ok
    have hx' := Op.exec_spec H' hL fuel op w' h.ok'
    unfold Op.exec at hx hx'
    rw [hE] at hx
    rw [hF] at hx' ⊢
    simp only at hx hx' ⊢
    cases h1 : op.call L O fuel E w.lengths with
    | error e =>
      rw [h1] at hcall
      cases h2 : op.call L O' fuel F w'.lengths with
      | error e' => rw [h2] at hcall; exact hcall
      | ok b => rw [h2] at hcall; exact hcall.elim
    | ok r =>
      obtain ⟨r', h2, h3⟩ := hcall.ok_left h1
      rw [h1] at hx
      rw [h2] at hx' ⊢
      obtain ⟨new, E', s'⟩ := r
      obtain ⟨new', F', t'⟩ := r'
      simp only [bind, Except.bind, pure, Except.pure] at hx hx' h3 ⊢
      obtain ⟨e1, e2, e3⟩ := h3
      subst e1
      obtain ⟨w1, hw, hspec⟩ := hx.resolve_left (fun q => by cases q.1)
      obtain ⟨w1', hw', hspec'⟩ := hx'.resolve_left (fun q => by cases q.1)
      cases hw
      cases hw'
      refine ⟨hspec.ok, hspec'.ok, ?_⟩
      simp only
      refine List.rel_append (R := fun E F => Num φ H H' rel E s' F t') ?_ ?_
      · refine forall₂_set h.num ?_ e3
        intro j A B hj hA hB hR
        obtain ⟨q1, q2⟩ := hspec.others j A hj hA
        obtain ⟨q1', q2'⟩ := hspec'.others j B hj hB
        simp only at q1 q2 q1' q2'
        exact hR.frame (hspec.ok.good A (List.mem_of_getElem? q1)).ok
          (hspec'.ok.good B (List.mem_of_getElem? q1')).ok hspec.dom hspec'.dom q2 q2' e3.ext
      · rw [List.forall₂_map_right_iff, List.forall₂_same]
        exact e2

end

end Verif
