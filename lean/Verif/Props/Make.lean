import Verif.Model.Make
import Verif.Examples
import Verif.Proofs.Basis
import Verif.Props.Construction

/-!
# C105: `sample::Lengths::make`
-/

namespace Verif

set_option linter.unusedSectionVars false

variable {T : Type} [CommRing T] [LinearOrder T] [IsStrictOrderedRing T] {d : ℕ} {c : T →+ (Fin d → ℚ)}

/-- **C105** `make` throws if there is a negative value.  Otherwise, it returns lengths with an empty stack and a label for each value: the
`i`-th label has the `i`-th value, the labels are different, and all other labels, e.g., a default-constructed one whose random number is
not one of these, have no length and looking them up throws. -/
theorem C105_make (A : Arith T) (values : List T) :
    ((∃ v ∈ values, v < 0) → SLengths.makeTuple values = .error .invalidArgument) ∧
    ((∀ v ∈ values, 0 ≤ v) → ∃ (s : SLengths T) (labels : List Label), SLengths.makeTuple values = .ok (s, labels) ∧ s.stack = [] ∧ labels.Nodup ∧
      labels.mapM (fun l => (SLengths.ops A).get l s) = .ok values ∧
      ∀ r : ℕ, Label.default r ∉ labels → (SLengths.ops A).get (Label.default r) s = .error .outOfRange) := by
  constructor
  · rintro ⟨v, hv, h0⟩
    have : values.any (fun x => x < 0) = true := by simpa using ⟨v, hv, h0⟩
    simp only [SLengths.makeTuple, SLengths.make, this]
    rfl
  · intro h
    have h1 : values.any (fun x => x < 0) = false := by simpa using h
    have h2 : SLengths.toTuple (List.range values.length) (List.range values.length) = .ok (List.range values.length) := by
      unfold SLengths.toTuple
      have := mapM_ok_coeffs (g := fun i => match (List.range values.length)[i]? with
        | some l => (.ok l : M Label)
        | none => .error .outOfRange) (g' := id) (l := List.range values.length) (fun i hi => by
          have := List.mem_range.mp hi
          simp [this])
      exact this.trans (by rw [List.map_id])
    refine ⟨⟨[], values⟩, List.range values.length, ?_, rfl, List.nodup_range, ?_, ?_⟩
    · simp only [SLengths.makeTuple, SLengths.make, h1, SLengths.labels]
      show (do let labels ← SLengths.toTuple (List.range values.length) (List.range values.length); return ((⟨[], values⟩ : SLengths T), labels)) = _
      rw [h2]
      rfl
    · have := mapM_ok_coeffs (g := fun l => (SLengths.ops A).get l ⟨[], values⟩) (g' := fun i => values.getD i 0) (l := List.range values.length) (fun i hi => by
          have := List.mem_range.mp hi
          show SLengths.at' _ _ = _
          simp [SLengths.at', this])
      rw [this]
      congr 1
      apply List.ext_getElem
      · simp
      · intro i h1 h2
        simp [h2]
    · intro r hr
      have hr' : values.length ≤ r := by simpa [Label.default] using hr
      show SLengths.at' _ _ = _
      simp [SLengths.at', Label.default, hr']

/-- **C105** Lengths from the default constructor are those constructed without any values: they have no labels, no label can be used with them, and no IET can
be created with them. -/
theorem C105_default (A : Arith T) : SLengths.make ([] : List T) = .ok SLengths.default ∧ (SLengths.default : SLengths T).labels = [] ∧
    (∀ l, (SLengths.ops A).get l SLengths.default = .error .outOfRange) ∧
    ∀ top bottom, ∃ e, (IET.mk? (SLengths.ops A) top bottom SLengths.default : M (IET T)) = .error e := by
  have hget : ∀ l, (SLengths.ops A).get l SLengths.default = .error .outOfRange := fun l => by
    simp [SLengths.ops, SLengths.at', SLengths.default]
  refine ⟨by simp [SLengths.make, SLengths.default], rfl, hget, fun top bottom => ?_⟩
  cases hr : (IET.mk? (SLengths.ops A) top bottom SLengths.default : M (IET T)) with
  | error e => exact ⟨e, rfl⟩
  | ok E =>
    exfalso
    unfold IET.mk? at hr
    cases top with
    | nil =>
      simp [assertM, bind, Except.bind, pure, Except.pure] at hr
      repeat' split at hr
      all_goals simp_all
    | cons a l =>
      simp only [List.mapM_cons, hget, assertM, bind, Except.bind] at hr
      repeat' split at hr
      all_goals simp_all

/-- **C105** The labels returned by `make` can be arranged in any way to construct an IET, as long as the values that are used are positive. -/
theorem C105_construct {A : Arith T} (hA : A.Lawful c) {values : List T} {s : SLengths T} {labels : List Label}
    (h : SLengths.makeTuple values = .ok (s, labels)) {top bottom : List Label} (hne : top ≠ []) (hsub : ∀ l ∈ top, l ∈ labels) (hn : top.Nodup)
    (hp : bottom.Perm top) (hpos : ∀ l ∈ top, (SLengths.ops A).get l s ≠ .ok 0) (m : Mem) :
    (SLengths.lawful hA).Ok (IET.fresh top bottom) s ∧
    ∃ (P : PIET T) (m' : Mem), PIET.mk? (SLengths.ops A) top bottom s m = .ok (P, m') ∧ m'.labels P.top = .ok top ∧ m'.labels P.bottom = .ok bottom := by
  have hnn : ∀ v ∈ values, 0 ≤ v := by
    by_contra hc
    push Not at hc
    rw [(C105_make A values).1 hc] at h
    cases h
  obtain ⟨s', labels', h1, h2, h3, h4, h5⟩ := (C105_make A values).2 hnn
  rw [h] at h1
  cases h1
  have hs : s = ⟨[], values⟩ := by
    have h1 : values.any (fun x => x < 0) = false := by simpa using hnn
    simp only [SLengths.makeTuple, SLengths.make, h1] at h
    cases ht : SLengths.toTuple (SLengths.labels ⟨[], values⟩) (List.range values.length) with
    | error e =>
      exfalso
      have : (do let labels ← SLengths.toTuple (SLengths.labels ⟨[], values⟩) (List.range values.length); return ((⟨[], values⟩ : SLengths T), labels)) = .ok (s, labels) := h
      rw [ht] at this
      cases this
    | ok ls =>
      have : (do let labels ← SLengths.toTuple (SLengths.labels ⟨[], values⟩) (List.range values.length); return ((⟨[], values⟩ : SLengths T), labels)) = .ok (s, labels) := h
      rw [ht] at this
      cases this
      rfl
  subst hs
  have hget : ∀ l ∈ labels, ∃ v, (SLengths.ops A).get l (⟨[], values⟩ : SLengths T) = .ok v := by
    intro l hl
    by_contra hc
    push Not at hc
    cases hg : (SLengths.ops A).get l (⟨[], values⟩ : SLengths T) with
    | ok v => exact hc v hg
    | error e =>
      have : ∀ (ls : List Label), l ∈ ls → ∀ vs, ls.mapM (fun l => (SLengths.ops A).get l (⟨[], values⟩ : SLengths T)) ≠ .ok vs := by
        intro ls
        induction ls with
        | nil => simp
        | cons k ls ih =>
          intro hk vs hvs
          rw [List.mapM_cons] at hvs
          cases hgk : (SLengths.ops A).get k (⟨[], values⟩ : SLengths T) with
          | error e' => rw [hgk] at hvs; cases hvs
          | ok w =>
            rw [hgk] at hvs
            rcases List.mem_cons.mp hk with rfl | hk
            · rw [hg] at hgk; cases hgk
            · cases hr : ls.mapM (fun l => (SLengths.ops A).get l (⟨[], values⟩ : SLengths T)) with
              | error e' =>
                have : (do let ys ← ls.mapM (fun l => (SLengths.ops A).get l (⟨[], values⟩ : SLengths T)); return w :: ys) = (.ok vs : M (List T)) := hvs
                rw [hr] at this
                cases this
              | ok ys => exact ih hk ys hr
      exact this labels hl values h4
  have hval : ∀ l ∈ top, l < values.length ∧ 0 < values.getD l 0 := by
    intro l hl
    obtain ⟨v, hv⟩ := hget l (hsub l hl)
    have hlt : l < values.length := by
      by_contra hc
      have : SLengths.at' (⟨[], values⟩ : SLengths T) l = .ok v := hv
      simp [SLengths.at', not_lt.mp hc] at this
    refine ⟨hlt, ?_⟩
    have hv' : SLengths.at' (⟨[], values⟩ : SLengths T) l = .ok values[l] := by simp [SLengths.at', hlt]
    have h0 : values[l] ≠ 0 := fun h0 => hpos l hl (by show SLengths.at' _ _ = _; rw [hv', h0])
    rw [List.getD_eq_getElem _ _ hlt]
    exact lt_of_le_of_ne (hnn _ (List.getElem_mem hlt)) h0.symm
  refine ⟨Examples.sample_ok hA top bottom values ⟨hne, hn, hp, hval, hnn⟩, ?_⟩
  obtain ⟨P, m', q1, q2, q3, -⟩ := C34_construct (O := SLengths.ops A) top bottom (⟨[], values⟩ : SLengths T) m hn hp hne (fun l hl => by
    obtain ⟨v, hv⟩ := hget l (hsub l hl)
    exact ⟨v, hv, fun h0 => hpos l hl (by rw [hv, h0])⟩)
  exact ⟨P, m', q1, q2, q3⟩

/-- The values `7`, `0`, `3`: the labels with positive values can be used. -/
example : ∃ P m', SLengths.makeTuple ([7, 0, 3] : List ℤ) = .ok (⟨[], [7, 0, 3]⟩, [0, 1, 2]) ∧
    PIET.mk? (SLengths.ops intArith) [0, 2] [2, 0] ⟨[], [7, 0, 3]⟩ Mem.empty = .ok (P, m') := by
  have h : SLengths.makeTuple ([7, 0, 3] : List ℤ) = .ok (⟨[], [7, 0, 3]⟩, [0, 1, 2]) := by decide +kernel
  obtain ⟨-, P, m', h1, -⟩ := C105_construct intArith_lawful h (top := [0, 2]) (bottom := [2, 0]) (by simp) (by decide) (by decide) (by decide)
    (by decide) Mem.empty
  exact ⟨P, m', h, h1⟩

end Verif
