import Verif.Examples
import Verif.Proofs.Boundary

/-!
# Comparing IETs
-/

namespace Verif

set_option linter.unusedSectionVars false

section spec

variable {P : Type} [CommRing P] [LinearOrder P] [IsStrictOrderedRing P]

/-- `F` is `E` with the labels renamed by `ρ`. -/
def AIET.Renamed (E F : AIET P) (ρ : Label → Label) : Prop :=
  F.top = E.top.map ρ ∧ F.bottom = E.bottom.map ρ ∧ ∀ a ∈ E.top, F.len (ρ a) = E.len a

theorem off_rename {len len' : Label → P} {ρ : Label → Label} : ∀ {l : List Label} {a : Label}, (∀ b ∈ l, ρ b = ρ a → b = a) →
    (∀ b ∈ l, len' (ρ b) = len b) → off len' (l.map ρ) (ρ a) = off len l a
  | [], _, _, _ => rfl
  | b :: l, a, h, h' => by
    simp only [List.map_cons, off]
    by_cases e : b = a
    · rw [if_pos e, if_pos (by rw [e])]
    · rw [if_neg e, if_neg (fun e' => e (h b (by simp) e')), h' b (by simp),
        off_rename (fun x hx => h x (by simp [hx])) (fun x hx => h' x (by simp [hx]))]

theorem AIET.Renamed.inj {E F : AIET P} {ρ : Label → Label} (h : E.Renamed F ρ) (hF : F.Valid) : ∀ a ∈ E.top, ∀ b ∈ E.top, ρ a = ρ b → a = b := by
  have := hF.nodup
  rw [h.1] at this
  exact List.inj_on_of_nodup_map this

/-- IETs that only differ in the names of the labels are the same transformation. -/
theorem AIET.Renamed.maps {E F : AIET P} {ρ : Label → Label} (h : E.Renamed F ρ) (hE : E.Valid) (hF : F.Valid) (x y : P) :
    E.Maps x y ↔ F.Maps x y := by
  have hi := h.inj hF
  have e1 : ∀ a ∈ E.top, off F.len F.top (ρ a) = off E.len E.top a := fun a ha => by
    rw [h.1]
    exact off_rename (fun b hb e => hi b hb a ha e) h.2.2
  have e2 : ∀ a ∈ E.top, off F.len F.bottom (ρ a) = off E.len E.bottom a := fun a ha => by
    rw [h.2.1]
    exact off_rename (fun b hb e => hi b (hE.perm.mem_iff.1 hb) a ha e) (fun b hb => h.2.2 b (hE.perm.mem_iff.1 hb))
  constructor
  · rintro ⟨a, ha, h1, h2, h3⟩
    refine ⟨ρ a, by rw [h.1]; exact List.mem_map_of_mem ha, ?_, ?_, ?_⟩
    · rw [e1 a ha]; exact h1
    · rw [e1 a ha, h.2.2 a ha]; exact h2
    · rw [e1 a ha, e2 a ha]; exact h3
  · rintro ⟨b, hb, h1, h2, h3⟩
    rw [h.1] at hb
    obtain ⟨a, ha, rfl⟩ := List.mem_map.1 hb
    rw [e1 a ha] at h1 h2 h3
    rw [h.2.2 a ha] at h2
    rw [e2 a ha] at h3
    exact ⟨a, ha, h1, h2, h3⟩

end spec

section

variable {σ σ' σ'' T ε ε' ε'' : Type} [CommRing T] [LinearOrder T] [IsStrictOrderedRing T] {O : LengthsOps σ T} {O' : LengthsOps σ' T}
  {O'' : LengthsOps σ'' T} {d d' d'' : ℕ} {c : T →+ (Fin d → ℚ)} {c' : T →+ (Fin d' → ℚ)} {c'' : T →+ (Fin d'' → ℚ)}

theorem allM_ok {α : Type} {f : α → M Bool} {g : α → Bool} : ∀ {l : List α}, (∀ x ∈ l, f x = .ok (g x)) → IET.allM f l = .ok (l.all g)
  | [], _ => rfl
  | x :: l, h => by
    simp only [IET.allM, h x (by simp), bind, Except.bind, pure, Except.pure]
    rw [allM_ok (fun y hy => h y (by simp [hy]))]
    cases h' : g x <;> simp [h']

/-- **C24.** `operator==` always returns for valid IETs, and it holds exactly if top, bottom and all lengths agree. -/
theorem C24_eq (H : LawfulLengths O c ε) (H' : LawfulLengths O' c' ε') {E E' : IET T} {s : σ} {s' : σ'} (hE : H.Ok E s) (hE' : H'.Ok E' s') :
    ∃ b, E.beq O O' s E' s' = .ok b ∧ (b = true ↔ E.top = E'.top ∧ E.bottom = E'.bottom ∧ ∀ a ∈ E.top, O.get a s = O'.get a s') := by
  unfold IET.beq
  by_cases h : E.top ≠ E'.top ∨ E.bottom ≠ E'.bottom
  · rw [if_pos h]
    refine ⟨false, rfl, ?_⟩
    simp only [Bool.false_eq_true, false_iff]
    rintro ⟨h1, h2, _⟩
    rcases h with h | h
    · exact h h1
    · exact h h2
  · rw [if_neg h]
    simp only [not_or, ne_eq, not_not] at h
    refine ⟨_, allM_ok (g := fun l => decide (H.len s l = H'.len s' l)) ?_, ?_⟩
    · intro a ha
      simp only [H.get_spec s a hE.inv (hE.dom a ha), H'.get_spec s' a hE'.inv (hE'.dom a (h.1 ▸ ha)), bind, Except.bind, pure, Except.pure]
    · rw [List.all_eq_true]
      constructor
      · intro h1
        refine ⟨h.1, h.2, fun a ha => ?_⟩
        rw [H.get_spec s a hE.inv (hE.dom a ha), H'.get_spec s' a hE'.inv (hE'.dom a (h.1 ▸ ha)), of_decide_eq_true (h1 a ha)]
      · rintro ⟨_, _, h1⟩ a ha
        have := h1 a ha
        rw [H.get_spec s a hE.inv (hE.dom a ha), H'.get_spec s' a hE'.inv (hE'.dom a (h.1 ▸ ha)), Except.ok.injEq] at this
        exact decide_eq_true this

/-- **C24.** `operator==` is reflexive, symmetric and transitive on valid IETs, also for different implementations of lengths. -/
theorem C24_equivalence (H : LawfulLengths O c ε) (H' : LawfulLengths O' c' ε') (H'' : LawfulLengths O'' c'' ε'') {E E' E'' : IET T} {s : σ} {s' : σ'}
    {s'' : σ''} (hE : H.Ok E s) (hE' : H'.Ok E' s') (hE'' : H''.Ok E'' s'') :
    E.beq O O s E s = .ok true ∧ E.beq O O' s E' s' = E'.beq O' O s' E s ∧
    (E.beq O O' s E' s' = .ok true → E'.beq O' O'' s' E'' s'' = .ok true → E.beq O O'' s E'' s'' = .ok true) := by
  obtain ⟨b1, p1, q1⟩ := C24_eq H H hE hE
  obtain ⟨b2, p2, q2⟩ := C24_eq H H' hE hE'
  obtain ⟨b3, p3, q3⟩ := C24_eq H' H hE' hE
  obtain ⟨b4, p4, q4⟩ := C24_eq H' H'' hE' hE''
  obtain ⟨b5, p5, q5⟩ := C24_eq H H'' hE hE''
  rw [p1, p2, p3, p4, p5]
  simp only [Except.ok.injEq, q1, q2, q4, q5]
  refine ⟨⟨trivial, trivial, fun _ _ => trivial⟩, ?_, ?_⟩
  · rw [Bool.eq_iff_iff, q2, q3]
    constructor
    · rintro ⟨h1, h2, h3⟩
      exact ⟨h1.symm, h2.symm, fun a ha => (h3 a (h1 ▸ ha)).symm⟩
    · rintro ⟨h1, h2, h3⟩
      exact ⟨h1.symm, h2.symm, fun a ha => (h3 a (h1 ▸ ha)).symm⟩
  · rintro ⟨h1, h2, h3⟩ ⟨h1', h2', h3'⟩
    exact ⟨h1.trans h1', h2.trans h2', fun a ha => (h3 a ha).trans (h3' a (h1 ▸ ha))⟩

/-- The positions of the labels of `bottom` determine `bottom`. -/
theorem permutation_map {top bottom top' bottom' : List Label} (hb : ∀ b ∈ bottom, b ∈ top) (hb' : ∀ b ∈ bottom', b ∈ top')
    {ρ : Label → Label} (hρ : top' = top.map ρ) (h : IET.permutation top bottom = IET.permutation top' bottom') : bottom' = bottom.map ρ := by
  subst hρ
  have key : ∀ (l : List Label) (b : Label), b ∈ l → l[l.findIdx (fun t => t = b)]? = some b := by
    intro l b hb
    have h1 : l.findIdx (fun t => t = b) < l.length := List.findIdx_lt_length_of_exists ⟨b, hb, by simp⟩
    rw [List.getElem?_eq_getElem h1]
    have := List.findIdx_getElem (w := h1)
    simpa using this
  have h1 : (IET.permutation top bottom).map (fun i => (top.map ρ)[i]?) = bottom.map (fun b => some (ρ b)) := by
    unfold IET.permutation
    rw [List.map_map]
    apply List.map_congr_left
    intro b hbb
    simp only [Function.comp_apply, List.getElem?_map, key top b (hb b hbb), Option.map_some]
  have h2 : (IET.permutation (top.map ρ) bottom').map (fun i => (top.map ρ)[i]?) = bottom'.map some := by
    unfold IET.permutation
    rw [List.map_map]
    apply List.map_congr_left
    intro b hbb
    simp only [Function.comp_apply, key _ b (hb' b hbb)]
  rw [h, h2] at h1
  have : bottom'.map some = (bottom.map ρ).map some := by rw [h1, List.map_map]; rfl
  exact List.map_injective_iff.2 (Option.some_injective _) this

theorem findIdx_map {ρ : Label → Label} {a : Label} : ∀ {l : List Label}, (∀ b ∈ l, ρ b = ρ a → b = a) →
    (l.map ρ).findIdx (fun t => t = ρ a) = l.findIdx (fun t => t = a)
  | [], _ => rfl
  | b :: l, h => by
    rw [List.map_cons, List.findIdx_cons, List.findIdx_cons, findIdx_map (fun x hx => h x (by simp [hx]))]
    have : decide (ρ b = ρ a) = decide (b = a) := by
      rw [decide_eq_decide]
      exact ⟨h b (by simp), fun e => by rw [e]⟩
    rw [this]

/-- **C24.** `equivalent()` always returns for valid IETs, and it holds exactly if one IET arises from the other one by renaming labels. -/
theorem C24_equivalent (H : LawfulLengths O c ε) (H' : LawfulLengths O' c' ε') {E E' : IET T} {s : σ} {s' : σ'} (hE : H.Ok E s) (hE' : H'.Ok E' s') :
    ∃ b, E.equivalent O O' s E' s' = .ok b ∧ (b = true ↔ ∃ ρ, (H.abs E s).Renamed (H'.abs E' s') ρ) := by
  have hv := hE.valid
  have hv' := hE'.valid
  have m1 : E.top.mapM (fun l => O.get l s) = .ok (E.top.map (H.len s)) := mapM_ok (fun a ha => H.get_spec s a hE.inv (hE.dom a ha))
  have m2 : E'.top.mapM (fun l => O'.get l s') = .ok (E'.top.map (H'.len s')) := mapM_ok (fun a ha => H'.get_spec s' a hE'.inv (hE'.dom a ha))
  unfold IET.equivalent
  by_cases h1 : E.size ≠ E'.size
  · rw [if_pos h1]
    refine ⟨false, rfl, ?_⟩
    simp only [Bool.false_eq_true, false_iff]
    rintro ⟨ρ, hρ, _⟩
    apply h1
    have := congrArg List.length hρ
    simpa [LawfulLengths.abs, IET.size] using this.symm
  rw [if_neg h1]
  by_cases h2 : IET.permutation E.top E.bottom ≠ IET.permutation E'.top E'.bottom
  · rw [if_pos h2]
    refine ⟨false, rfl, ?_⟩
    simp only [Bool.false_eq_true, false_iff]
    rintro ⟨ρ, hρ⟩
    apply h2
    have hi := hρ.inj hv'
    obtain ⟨e1, e2, _⟩ := hρ
    simp only [LawfulLengths.abs] at e1 e2 hi
    unfold IET.permutation
    rw [e1, e2, List.map_map]
    apply List.map_congr_left
    intro b hb
    exact (findIdx_map (fun x hx e => hi x hx b (hv.perm.mem_iff.1 hb) e)).symm
  rw [if_neg h2]
  simp only [m1, m2, bind, Except.bind, pure, Except.pure]
  refine ⟨_, rfl, ?_⟩
  simp only [ne_eq, not_not] at h1 h2
  rw [decide_eq_true_eq]
  constructor
  · intro h3
    -- send the label at each position to the label at the same position
    let ρ : Label → Label := fun a => E'.top.getD (E.top.findIdx (fun t => t = a)) 0
    have hn : E.top.Nodup := hv.nodup
    have hidx : ∀ (k : ℕ) (hk : k < E.top.length), E.top.findIdx (fun t => t = E.top[k]) = k := by
      intro k hk
      have h4 : E.top.findIdx (fun t => t = E.top[k]) < E.top.length := List.findIdx_lt_length_of_exists ⟨E.top[k], List.getElem_mem hk, by simp⟩
      have h5 := List.findIdx_getElem (w := h4)
      exact (List.Nodup.getElem_inj_iff hn).1 (by simpa using h5)
    have hlen : E.top.length = E'.top.length := h1
    have htop : E'.top = E.top.map ρ := by
      apply List.ext_getElem (by simpa using hlen.symm)
      intro k hk hk'
      simp only [List.length_map] at hk'
      simp only [List.getElem_map, ρ, hidx k hk', List.getD_eq_getElem?_getD, List.getElem?_eq_getElem hk, Option.getD_some]
    refine ⟨ρ, htop, ?_, ?_⟩
    · exact permutation_map (fun b hb => hv.perm.mem_iff.1 hb) (fun b hb => hv'.perm.mem_iff.1 hb) htop h2
    · rw [htop, List.map_map] at h3
      intro a ha
      exact ((List.map_inj_left.1 h3) a ha).symm
  · rintro ⟨ρ, e1, _, e3⟩
    simp only [LawfulLengths.abs] at e1 e3
    rw [e1, List.map_map]
    exact (List.map_congr_left (fun a ha => (e3 a ha).symm))

/-- **C24.** IETs that are equal, or equivalent, define the same transformation. -/
theorem C24_same_map (H : LawfulLengths O c ε) (H' : LawfulLengths O' c' ε') {E E' : IET T} {s : σ} {s' : σ'} (hE : H.Ok E s) (hE' : H'.Ok E' s')
    (h : E.beq O O' s E' s' = .ok true ∨ E.equivalent O O' s E' s' = .ok true) (x y : T) :
    (H.abs E s).Maps x y ↔ (H'.abs E' s').Maps x y := by
  rcases h with h | h
  · obtain ⟨b, p, q⟩ := C24_eq H H' hE hE'
    rw [h] at p
    cases p
    obtain ⟨h1, h2, h3⟩ := q.1 rfl
    refine AIET.Renamed.maps (ρ := id) ⟨by simp [LawfulLengths.abs, h1], by simp [LawfulLengths.abs, h2], fun a ha => ?_⟩ hE.valid hE'.valid x y
    have := h3 a ha
    rw [H.get_spec s a hE.inv (hE.dom a ha), H'.get_spec s' a hE'.inv (hE'.dom a (h1 ▸ ha)), Except.ok.injEq] at this
    exact this.symm
  · obtain ⟨b, p, q⟩ := C24_equivalent H H' hE hE'
    rw [h] at p
    cases p
    obtain ⟨ρ, hρ⟩ := q.1 rfl
    exact hρ.maps hE.valid hE'.valid x y

end

/-- An IET with lengths in `ℤ`, and the same IET with other labels. -/
example : (IET.fresh [0, 1] [1, 0] : IET ℤ).beq (SLengths.ops intArith) (SLengths.ops intArith) ⟨[], [5, 3]⟩ (IET.fresh [0, 1] [1, 0]).swap.swap ⟨[], [5, 3, 8]⟩ = .ok true ∧
    (IET.fresh [0, 1] [1, 0] : IET ℤ).beq (SLengths.ops intArith) (SLengths.ops intArith) ⟨[], [5, 3]⟩ (IET.fresh [2, 1] [1, 2]) ⟨[], [7, 3, 5]⟩ = .ok false ∧
    (IET.fresh [0, 1] [1, 0] : IET ℤ).equivalent (SLengths.ops intArith) (SLengths.ops intArith) ⟨[], [5, 3]⟩ (IET.fresh [2, 1] [1, 2]) ⟨[], [7, 3, 5]⟩ = .ok true ∧
    (IET.fresh [0, 1] [1, 0] : IET ℤ).equivalent (SLengths.ops intArith) (SLengths.ops intArith) ⟨[], [5, 3]⟩ (IET.fresh [2, 1] [1, 2]) ⟨[], [7, 3, 6]⟩ = .ok false := by
  decide

end Verif
