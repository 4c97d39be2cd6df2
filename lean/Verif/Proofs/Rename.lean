import Verif.Proofs.Renormalize
import Verif.Proofs.Tracker
import Verif.ReachDecomp

/-!
# Other names for the intervals

Transformations that only differ in the labels of their intervals are the same map, and induction does the same to them.
-/

namespace Verif

set_option linter.unusedSectionVars false

variable {T : Type} [CommRing T] [LinearOrder T] [IsStrictOrderedRing T]

/-- `B` is `A` with each label `a` replaced by `ρ a`. -/
structure Renames (ρ : Label → Label) (A B : AIET T) : Prop where
  top : B.top = A.top.map ρ
  bottom : B.bottom = A.bottom.map ρ
  len : ∀ a ∈ A.top, B.len (ρ a) = A.len a
  inj : ∀ a ∈ A.top, ∀ b ∈ A.top, ρ a = ρ b → a = b

theorem sumLen_renamed {ρ : Label → Label} {len len' : Label → T} : ∀ {l : List Label}, (∀ a ∈ l, len' (ρ a) = len a) →
    sumLen len' (l.map ρ) = sumLen len l
  | [], _ => rfl
  | a :: l, h => by
    rw [List.map_cons, sumLen, sumLen, h a (by simp), sumLen_renamed (fun b hb => h b (List.mem_cons_of_mem _ hb))]

theorem off_renamed {ρ : Label → Label} {len len' : Label → T} {a : Label} : ∀ {l : List Label}, (∀ b ∈ l, len' (ρ b) = len b) →
    (∀ b ∈ l, ρ b = ρ a → b = a) → off len' (l.map ρ) (ρ a) = off len l a
  | [], _, _ => rfl
  | b :: l, h, hi => by
    rw [List.map_cons, off, off, h b (by simp), off_renamed (fun b hb => h b (List.mem_cons_of_mem _ hb)) (fun b hb => hi b (List.mem_cons_of_mem _ hb))]
    by_cases e : b = a
    · rw [if_pos e, if_pos (by rw [e])]
    · rw [if_neg e, if_neg (fun e' => e (hi b (by simp) e'))]

namespace Renames

variable {ρ : Label → Label} {A B : AIET T}

theorem valid (h : Renames ρ A B) (hA : A.Valid) : B.Valid where
  ne_nil := by rw [h.top]; simpa using hA.ne_nil
  nodup := by rw [h.top]; exact List.Nodup.map_on (fun a ha b hb => h.inj a ha b hb) hA.nodup
  perm := by rw [h.top, h.bottom]; exact hA.perm.map ρ
  pos := by
    intro a ha
    rw [h.top] at ha
    obtain ⟨b, hb, rfl⟩ := List.mem_map.mp ha
    rw [h.len b hb]
    exact hA.pos b hb

theorem inv (h : Renames ρ A B) (hA : A.Valid) : Renames ρ A.inv B.inv :=
  ⟨h.bottom, h.top, fun a ha => h.len a (hA.perm.mem_iff.mp ha), fun a ha b hb => h.inj a (hA.perm.mem_iff.mp ha) b (hA.perm.mem_iff.mp hb)⟩

theorem total (h : Renames ρ A B) : B.total = A.total := by
  unfold AIET.total
  rw [h.top]
  exact sumLen_renamed h.len

theorem maps (h : Renames ρ A B) (hA : A.Valid) : B.Maps = A.Maps := by
  have e1 : ∀ a ∈ A.top, off B.len B.top (ρ a) = off A.len A.top a := fun a ha => by
    rw [h.top]; exact off_renamed h.len (fun b hb => h.inj b hb a ha)
  have e2 : ∀ a ∈ A.top, off B.len B.bottom (ρ a) = off A.len A.bottom a := fun a ha => by
    rw [h.bottom]
    exact off_renamed (fun b hb => h.len b (hA.perm.mem_iff.mp hb)) (fun b hb => h.inj b (hA.perm.mem_iff.mp hb) a ha)
  funext x y
  apply propext
  constructor
  · rintro ⟨b, hb, h1, h2, h3⟩
    rw [h.top] at hb
    obtain ⟨a, ha, rfl⟩ := List.mem_map.mp hb
    rw [e1 a ha] at h1
    rw [e1 a ha, h.len a ha] at h2
    rw [e1 a ha, e2 a ha] at h3
    exact ⟨a, ha, h1, h2, h3⟩
  · rintro ⟨a, ha, h1, h2, h3⟩
    refine ⟨ρ a, by rw [h.top]; exact List.mem_map_of_mem ha, ?_, ?_, ?_⟩
    · rw [e1 a ha]; exact h1
    · rw [e1 a ha, h.len a ha]; exact h2
    · rw [e1 a ha, e2 a ha]; exact h3

theorem map {P : Type} [CommRing P] [LinearOrder P] [IsStrictOrderedRing P] (ι : T →+ P) (h : Renames ρ A B) :
    Renames ρ (A.map ι) (B.map ι) :=
  ⟨h.top, h.bottom, fun a ha => congrArg ι (h.len a ha), h.inj⟩

theorem agree (h : Renames ρ A B) {B' : AIET T} (hB : B.Agree B') : Renames ρ A B' :=
  ⟨hB.1.symm.trans h.top, hB.2.1.symm.trans h.bottom, fun a ha => by
    rw [← hB.2.2 (ρ a) (by rw [h.top]; exact List.mem_map_of_mem ha)]; exact h.len a ha, h.inj⟩

theorem rauzyTop (h : Renames ρ A B) (hA : A.Valid) {A' : AIET T} (hs : RauzyTop A A') : ∃ B', RauzyTop B B' ∧ Renames ρ A' B' := by
  cases hs with
  | mk a b t l₁ l₂ len hlt =>
    obtain ⟨btop, bbot, blen⟩ := B
    obtain ⟨h1, h2, h3, h4⟩ := h
    simp only [List.map_cons, List.map_append] at h1 h2 h3 h4
    subst h1 h2
    have hbm : b ∈ a :: t := hA.perm.mem_iff.mp (by simp)
    have ham : a ∈ a :: t := by simp
    refine ⟨_, .mk (ρ a) (ρ b) (t.map ρ) (l₁.map ρ) (l₂.map ρ) blen (by rw [h3 a ham, h3 b hbm]; exact hlt), rfl, by simp, ?_, h4⟩
    intro x hx
    simp only [shorten]
    rw [h3 a ham, h3 b hbm]
    by_cases e : x = a
    · rw [if_pos e, if_pos (by rw [e])]
    · rw [if_neg e, if_neg (fun e' => e (h4 x hx a ham e')), h3 x hx]

theorem step (h : Renames ρ A B) (hA : A.Valid) {A' : AIET T} (hs : RauzyStep A A') : ∃ B', RauzyStep B B' ∧ Renames ρ A' B' := by
  rcases hs with hs | hs
  · obtain ⟨B', h1, h2⟩ := h.rauzyTop hA hs
    exact ⟨B', .inl h1, h2⟩
  · obtain ⟨B', h1, h2⟩ := (h.inv hA).rauzyTop hA.inv hs
    exact ⟨B'.inv, .inr h1, h2.inv (Steps.valid hA.inv (.single (.inl hs)))⟩

theorem stepsN {n : ℕ} {A A' : AIET T} (hs : StepsN n A A') : ∀ {B : AIET T}, A.Valid → Renames ρ A B → ∃ B', StepsN n B B' ∧ Renames ρ A' B' := by
  induction hs with
  | zero => intro B _ h; exact ⟨B, .zero _, h⟩
  | succ hs _ ih =>
    intro B hA h
    obtain ⟨B₁, h1, h2⟩ := h.step hA hs
    obtain ⟨B', h3, h4⟩ := ih (Steps.valid hA (.single hs)) h2
    exact ⟨B', .succ h1 h3, h4⟩

end Renames

/-- A transformation that agrees with `E₀` position by position is obtained from `E₀` by giving other names to the intervals, if lengths
are equal. -/
theorem LabelSimilar.renames {E₀ X : AIET T} (h : LabelSimilar E₀ X) (h0 : E₀.Valid) (hX : X.Valid)
    (hlen : E₀.top.map X.len = X.top.map X.len) : ∃ ρ, Renames ρ ⟨E₀.top, E₀.bottom, X.len⟩ X := by
  let ρ : Label → Label := fun a => (X.top[E₀.top.idxOf a]?).getD 0
  have hρ : ∀ a ∈ E₀.top, X.top[E₀.top.idxOf a]? = some (ρ a) := by
    intro a ha
    have hlt : E₀.top.idxOf a < X.top.length := by rw [h.length]; exact List.idxOf_lt_length_iff.mpr ha
    simp only [ρ]
    rw [List.getElem?_eq_getElem hlt]
    rfl
  refine ⟨ρ, ?_, ?_, ?_, ?_⟩
  · refine List.ext_getElem? (fun i => ?_)
    rw [List.getElem?_map]
    by_cases hi : i < E₀.top.length
    · rw [List.getElem?_eq_getElem hi, Option.map_some, ← hρ _ (List.getElem_mem hi), h0.nodup.idxOf_getElem]
    · have hi' : ¬ i < X.top.length := by rw [h.length]; exact hi
      rw [List.getElem?_eq_none (not_lt.mp hi), List.getElem?_eq_none (not_lt.mp hi')]
      rfl
  · have := h.perm
    rw [List.map_congr_left (fun a ha => hρ a (h0.perm.mem_iff.mp ha))] at this
    have e : E₀.bottom.map (fun a => some (ρ a)) = (E₀.bottom.map ρ).map some := by rw [List.map_map]; rfl
    rw [e] at this
    exact List.map_injective_iff.mpr (Option.some_injective _) this
  · intro a ha
    have ha : a ∈ E₀.top := ha
    have h1 := congrArg (fun l => l[E₀.top.idxOf a]?) hlen
    simp only [List.getElem?_map] at h1
    rw [hρ a ha, List.getElem?_eq_getElem (List.idxOf_lt_length_iff.mpr ha), List.getElem_idxOf] at h1
    simpa using h1.symm
  · intro a ha b hb e
    have ha : a ∈ E₀.top := ha
    have hb : b ∈ E₀.top := hb
    have h1 := hρ a ha
    rw [e, ← hρ b hb] at h1
    have hlt : E₀.top.idxOf a < X.top.length := by rw [h.length]; exact List.idxOf_lt_length_iff.mpr ha
    have h2 := (List.getElem?_inj hlt hX.nodup).mp h1
    exact (List.idxOf_inj ha).mp h2

/-- The remembered transformation with the current lengths. -/
theorem LabelSimilar.renamed_valid {E₀ E₁ X : AIET T} (_ : LabelSimilar E₀ X) (h0 : E₀.Valid) (hX : X.Valid) (hs : Steps E₀ E₁)
    (hag : E₁.Agree X ∨ E₁.Agree X.inv) : (⟨E₀.top, E₀.bottom, X.len⟩ : AIET T).Valid where
  ne_nil := h0.ne_nil
  nodup := h0.nodup
  perm := h0.perm
  pos := by
    intro a ha
    have ha := (Steps.top_perm hs).mem_iff.mpr ha
    refine hX.pos a ?_
    rcases hag with h | h
    · rw [h.1] at ha; exact ha
    · rw [h.1] at ha; exact hX.perm.mem_iff.mp ha

/-- If a transformation is similar to one that it induces, up to the names of the intervals, then the induction is never stuck. -/
theorem not_stuck_of_renamed_loop {ρ : Label → Label} {A B Y : AIET T} (hA : A.Valid) (h : Relation.TransGen RauzyStep A B)
    (hY : Y.Valid) (hp : Proportional A Y) (hr : Renames ρ Y B ∨ Renames ρ Y B.inv) {C : AIET T} (hC : Steps B C) : ¬ C.Stuck := by
  intro hst
  obtain ⟨k, hk⟩ := TransGen.count h
  obtain ⟨m, hm⟩ := hC.count
  have hB := Steps.valid hA h.to_reflTransGen
  obtain ⟨D, h1, _⟩ := Proportional.stepsN (hk.trans hm) hA hY hp
  rcases hr with hr | hr
  · obtain ⟨D', h2, _⟩ := Renames.stepsN h1 hY hr
    have := hm.le_of_stuck hB hst h2
    omega
  · obtain ⟨D', h2, _⟩ := Renames.stepsN h1 hY hr
    have := hm.inv.le_of_stuck hB.inv hst.inv h2
    omega

/-- What has been found for an IET that is aligned with the remembered state. -/
theorem LawfulLengths.LoopFound.aligned {σ ε : Type} {O : LengthsOps σ T} {d : ℕ} {c : T →+ (Fin d → ℚ)} {H : LawfulLengths O c ε} {E : IET T}
    {s : σ} (h : H.LoopFound E s) (hinv : H.inv s) (hdom : ∀ a ∈ E.top, H.dom s a) (hv : (H.abs E s).Valid) (ha : E.Aligned O s) :
    ∃ E₀ E₁ : AIET T, E₀.Valid ∧ Relation.TransGen RauzyStep E₀ E₁ ∧ (E₁.Agree (H.abs E s) ∨ E₁.Agree (H.abs E s).inv) ∧
      LabelSimilar E₀ (H.abs E s) ∧ E₀.top.map (H.abs E s).len = (H.abs E s).top.map (H.abs E s).len := by
  obtain ⟨E₀, E₁, a1, a2, a3, a4, a5⟩ := h
  refine ⟨E₀, E₁, a1, a2, a3, a4, ?_⟩
  have hmem : ∀ a ∈ E₀.top, a ∈ E.top := by
    intro a ha
    have ha := (Steps.top_perm a2.to_reflTransGen).mem_iff.mpr ha
    rcases a3 with a3 | a3
    · rw [a3.1] at ha; exact ha
    · rw [a3.1] at ha; exact hv.perm.mem_iff.mp ha
  have e : ∀ l : List Label, (∀ a ∈ l, a ∈ E.top) → l.map (fun a => O.get a s) = (l.map (H.len s)).map Except.ok := by
    intro l hl
    rw [List.map_map]
    exact List.map_congr_left (fun a ha => H.get_spec s a hinv (hdom a (hl a ha)))
  rw [IET.Aligned, ← a5, e _ hmem, e _ (fun _ => id)] at ha
  exact List.map_injective_iff.mpr (fun x y h => by cases h; rfl) ha

end Verif
