import Verif.Proofs.Zorich
import Mathlib.Data.List.Perm.Subperm
import Mathlib.Data.List.Dedup

/-!
# `reduce` finds the first invariant prefix
-/

namespace Verif

set_option linter.unusedSectionVars false

/-- The elements of `l` that are not in `m`. -/
def ahead (l m : List Label) : ℕ := l.countP (fun x => decide (x ∉ m))

theorem ahead_eq_zero {l m : List Label} : ahead l m = 0 ↔ ∀ x ∈ l, x ∈ m := by
  simp [ahead, List.countP_eq_zero]

theorem ahead_append_left (l m : List Label) (t : Label) :
    ahead (l ++ [t]) m = ahead l m + if t ∈ m then 0 else 1 := by
  simp only [ahead, List.countP_append, List.countP_singleton]
  by_cases h : t ∈ m <;> simp [h]

theorem ahead_append_right_notMem {l : List Label} (m : List Label) {t : Label} (h : t ∉ l) :
    ahead l (m ++ [t]) = ahead l m := by
  simp only [ahead]
  apply List.countP_congr
  intro x hx
  have : x ≠ t := fun e => h (e ▸ hx)
  simp [this]

theorem ahead_append_right_mem : ∀ {l : List Label} (m : List Label) {t : Label}, l.Nodup → t ∈ l → t ∉ m →
    ahead l (m ++ [t]) + 1 = ahead l m := by
  intro l
  induction l with
  | nil => intro m t _ h; simp at h
  | cons x l ih =>
    intro m t hn ht hm
    simp only [List.nodup_cons] at hn
    by_cases hx : x = t
    · subst hx
      have := ahead_append_right_notMem m hn.1
      simp only [ahead, List.countP_cons] at this ⊢
      rw [this]; simp [hm]
    · have htl : t ∈ l := by simpa [Ne.symm hx] using ht
      have := ih m hn.2 htl hm
      simp only [ahead, List.countP_cons] at this ⊢
      have hxx : (x ∉ m ++ [t]) ↔ x ∉ m := by simp [hx]
      simp only [hxx]; omega

/-- The state of the loop in `reduce` after having seen the prefixes `tp` and `bp`. -/
structure RInv (tp bp marked : List Label) (ta ba : Int) : Prop where
  nodup : marked.Nodup
  mem : ∀ x, x ∈ marked ↔ (x ∈ tp ∧ x ∉ bp) ∨ (x ∉ tp ∧ x ∈ bp)
  ta : ta = ahead tp bp
  ba : ba = ahead bp tp

theorem RInv.top {tp bp marked : List Label} {ta ba : Int} (h : RInv tp bp marked ta ba) (hb : bp.Nodup)
    {t : Label} (ht : t ∉ tp) :
    RInv (tp ++ [t]) bp (if t ∈ marked then marked.erase t else t :: marked)
      (if t ∈ marked then ta else ta + 1) (if t ∈ marked then ba - 1 else ba) := by
  by_cases hm : t ∈ marked
  · have htb : t ∈ bp := by
      rcases (h.mem t).mp hm with h' | h'
      · exact absurd h'.1 ht
      · exact h'.2
    simp only [hm, if_true]
    refine ⟨h.nodup.erase t, ?_, ?_, ?_⟩
    · intro x
      rw [h.nodup.mem_erase_iff, h.mem]
      by_cases hx : x = t
      · subst hx; simp [htb]
      · simp [hx]
    · rw [h.ta, ahead_append_left]; simp [htb]
    · rw [h.ba, ← ahead_append_right_mem tp hb htb ht]; simp
  · have htb : t ∉ bp := fun hb' => hm ((h.mem t).mpr (.inr ⟨ht, hb'⟩))
    simp only [hm, if_false]
    refine ⟨List.nodup_cons.mpr ⟨hm, h.nodup⟩, ?_, ?_, ?_⟩
    · intro x
      rw [List.mem_cons, h.mem]
      by_cases hx : x = t
      · subst hx; simp [htb]
      · simp [hx]
    · rw [h.ta, ahead_append_left]; simp [htb]
    · rw [h.ba, ahead_append_right_notMem tp htb]

theorem RInv.symm {tp bp marked : List Label} {ta ba : Int} (h : RInv tp bp marked ta ba) :
    RInv bp tp marked ba ta :=
  ⟨h.nodup, fun x => by rw [h.mem]; tauto, h.ba, h.ta⟩

theorem perm_of_ahead {l m : List Label} (hl : l.Nodup) (hm : m.Nodup) :
    l.Perm m ↔ ahead l m = 0 ∧ ahead m l = 0 := by
  rw [ahead_eq_zero, ahead_eq_zero, List.perm_ext_iff_of_nodup hl hm]
  constructor
  · intro h; exact ⟨fun x hx => (h x).mp hx, fun x hx => (h x).mpr hx⟩
  · rintro ⟨h1, h2⟩ x; exact ⟨h1 x, h2 x⟩

theorem reduceLoop_spec : ∀ (ts bs tp bp marked : List Label) (ta ba : Int) (n : ℕ),
    RInv tp bp marked ta ba → (tp ++ ts).Nodup → (bp ++ bs).Nodup → (tp ++ ts).Perm (bp ++ bs) →
    tp.length = n → bp.length = n → ts ≠ [] →
    ∃ k, IET.reduceLoop ts bs marked ta ba n = .ok k ∧ n < k ∧ k ≤ (tp ++ ts).length ∧
      ((tp ++ ts).take k).Perm ((bp ++ bs).take k) ∧
      ∀ j, n < j → j < k → ¬ ((tp ++ ts).take j).Perm ((bp ++ bs).take j) := by
  intro ts
  induction ts with
  | nil => intro bs tp bp marked ta ba n _ _ _ _ _ _ h; exact absurd rfl h
  | cons t ts ih =>
    intro bs tp bp marked ta ba n hI hnt hnb hp htp hbp _
    have hlen := hp.length_eq
    cases bs with
    | nil => simp [htp, hbp] at hlen
    | cons b bs =>
      have et : tp ++ t :: ts = (tp ++ [t]) ++ ts := by simp
      have eb : bp ++ b :: bs = (bp ++ [b]) ++ bs := by simp
      rw [et] at hnt hp ⊢
      rw [eb] at hnb hp ⊢
      have hntp : (tp ++ [t]).Nodup := (List.nodup_append.mp hnt).1
      have hnbp : (bp ++ [b]).Nodup := (List.nodup_append.mp hnb).1
      have h1 := hI.top (List.nodup_append.mp hnbp).1 (t := t)
        (fun hm => (List.nodup_append.mp hntp).2.2 t hm t (by simp) rfl)
      have h2 := (h1.symm.top hntp (t := b)
        (fun hm => (List.nodup_append.mp hnbp).2.2 b hm b (by simp) rfl)).symm
      have hstep : IET.reduceLoop (t :: ts) (b :: bs) marked ta ba n =
          (let m' := if t ∈ marked then marked.erase t else t :: marked
           let ta' := if t ∈ marked then ta else ta + 1
           let ba' := if t ∈ marked then ba - 1 else ba
           let m'' := if b ∈ m' then m'.erase b else b :: m'
           let ta'' := if b ∈ m' then ta' - 1 else ta'
           let ba'' := if b ∈ m' then ba' else ba' + 1
           if ta'' = 0 ∧ ba'' = 0 then .ok (n + 1)
           else IET.reduceLoop ts bs m'' ta'' ba'' (n + 1)) := by
        simp only [IET.reduceLoop]
        by_cases hm : t ∈ marked
        · simp only [hm, if_true]
          by_cases hm' : b ∈ marked.erase t <;> simp only [hm', if_true, if_false]
        · simp only [hm, if_false]
          by_cases hm' : b ∈ t :: marked <;> simp only [hm', if_true, if_false]
      rw [hstep]
      generalize (if t ∈ marked then marked.erase t else t :: marked) = m' at h2 ⊢
      generalize (if t ∈ marked then ta else ta + 1) = ta' at h2 ⊢
      generalize (if t ∈ marked then ba - 1 else ba) = ba' at h2 ⊢
      simp only at h2 ⊢
      generalize (if b ∈ m' then m'.erase b else b :: m') = m'' at h2 ⊢
      generalize (if b ∈ m' then ta' - 1 else ta') = ta'' at h2 ⊢
      generalize (if b ∈ m' then ba' else ba' + 1) = ba'' at h2 ⊢
      have ltp : (tp ++ [t]).length = n + 1 := by simp [htp]
      have lbp : (bp ++ [b]).length = n + 1 := by simp [hbp]
      have tk : ((tp ++ [t]) ++ ts).take (n + 1) = tp ++ [t] := by exact List.take_left' ltp
      have bk : ((bp ++ [b]) ++ bs).take (n + 1) = bp ++ [b] := by exact List.take_left' lbp
      have hiff : (ta'' = 0 ∧ ba'' = 0) ↔ (tp ++ [t]).Perm (bp ++ [b]) := by
        rw [perm_of_ahead hntp hnbp, h2.ta, h2.ba]; norm_cast
      by_cases hz : ta'' = 0 ∧ ba'' = 0
      · rw [if_pos hz]
        refine ⟨n + 1, rfl, by omega, by simp; omega, by rw [tk, bk]; exact hiff.mp hz, ?_⟩
        intro j h1 h2; omega
      · rw [if_neg hz]
        have hts : ts ≠ [] := by
          rintro rfl
          have : bs = [] := by
            simp [htp, hbp] at hlen; exact hlen
          subst this
          exact hz (hiff.mpr (by simpa using hp))
        obtain ⟨k, hk, hk1, hk2, hk3, hk4⟩ := ih bs (tp ++ [t]) (bp ++ [b]) m'' ta'' ba'' (n + 1) h2 hnt hnb hp ltp lbp hts
        refine ⟨k, hk, by omega, hk2, hk3, ?_⟩
        intro j hj1 hj2
        by_cases hj : j = n + 1
        · subst hj; rw [tk, bk]; exact fun h => hz (hiff.mpr h)
        · exact hk4 j (by omega) hj2

/-- The loop started from the beginning. -/
theorem reduceLoop_spec₀ {top bottom : List Label} (hn : top.Nodup) (hp : bottom.Perm top) (hne : top ≠ []) :
    ∃ k, IET.reduceLoop top bottom [] 0 0 0 = .ok k ∧ 0 < k ∧ k ≤ top.length ∧
      (top.take k).Perm (bottom.take k) ∧ ∀ j, 0 < j → j < k → ¬ (top.take j).Perm (bottom.take j) := by
  have := reduceLoop_spec top bottom [] [] [] 0 0 0 ⟨by simp, by simp, by simp [ahead], by simp [ahead]⟩
    (by simpa using hn) (by simpa using hp.nodup_iff.mpr hn) (by simpa using hp.symm) rfl rfl hne
  simpa using this

section model

variable {σ T ε : Type} [CommRing T] [LinearOrder T] [IsStrictOrderedRing T] {O : LengthsOps σ T}
  {d : ℕ} {c : T →+ (Fin d → ℚ)}

theorem mapM_get (H : LawfulLengths O c ε) {s : σ} (hi : H.inv s) : ∀ (l : List Label), (∀ x ∈ l, H.dom s x) →
    l.mapM (fun l => O.get l s) = .ok (l.map (H.len s)) := by
  intro l
  induction l with
  | nil => intro _; rfl
  | cons a l ih =>
    intro h
    rw [List.mapM_cons, H.get_spec s a hi (h a (by simp)), ih (fun x hx => h x (by simp [hx]))]
    rfl

/-- The constructor accepts valid data. -/
theorem mk?_spec (H : LawfulLengths O c ε) {s : σ} (hi : H.inv s) {top bottom : List Label}
    (hv : (⟨top, bottom, H.len s⟩ : AIET T).Valid) (hd : ∀ a ∈ top, H.dom s a) :
    IET.mk? O top bottom s = .ok (IET.fresh top bottom : IET T) := by
  have h1 : top.length = bottom.length := hv.perm.length_eq.symm
  have h2 : top.dedup = top := List.Nodup.dedup hv.nodup
  have h3 : bottom.dedup = bottom := List.Nodup.dedup hv.nodup_bottom
  have h4 : (top.map (H.len s)).all (fun x => x ≠ 0) = true := by
    simp only [List.all_map, List.all_eq_true, Function.comp, decide_eq_true_eq]
    intro x hx; exact (hv.pos x hx).ne'
  have h5 : top.length ≠ 0 := by simpa using hv.ne_nil
  simp only [IET.mk?, mapM_get H hi top hd, h2, h3, assertM, h1, h4, bind, Except.bind, pure, Except.pure]
  rw [h1] at h5
  simp [h5]

/-- `left` and `right` are the two pieces of `E` cut after `k` intervals. -/
structure IsCut (E left right : AIET T) (k : ℕ) : Prop where
  pos : 0 < k
  lt : k < E.top.length
  left_eq : left = ⟨E.top.take k, E.bottom.take k, E.len⟩
  right_eq : right = ⟨E.top.drop k, E.bottom.drop k, E.len⟩
  perm : left.bottom.Perm left.top
  minimal : ∀ j, 0 < j → j < k → ¬ (E.top.take j).Perm (E.bottom.take j)

theorem IsCut.valid_left {E l r : AIET T} {k : ℕ} (hE : E.Valid) (h : IsCut E l r k) : l.Valid := by
  have := h.perm
  obtain ⟨h1, h2, rfl, rfl, h3, h4⟩ := h
  refine ⟨?_, hE.nodup.sublist (List.take_sublist _ _), this, fun a ha => hE.pos a (List.mem_of_mem_take ha)⟩
  intro e
  have := congrArg List.length e
  simp at this
  rcases this with rfl | h'
  · omega
  · exact hE.ne_nil h'

theorem IsCut.valid_right {E l r : AIET T} {k : ℕ} (hE : E.Valid) (h : IsCut E l r k) : r.Valid := by
  obtain ⟨h1, h2, rfl, rfl, h3, h4⟩ := h
  refine ⟨?_, hE.nodup.sublist (List.drop_sublist _ _), ?_, fun a ha => hE.pos a (List.mem_of_mem_drop ha)⟩
  · intro e
    have := congrArg List.length e
    simp at this; omega
  · have hp := hE.perm
    rw [← List.take_append_drop k E.top, ← List.take_append_drop k E.bottom] at hp
    exact (List.perm_append_left_iff _).mp ((h3.symm.append_right _).trans hp)

theorem reduce_spec (H : LawfulLengths O c ε) (E : IET T) (s : σ) (h : H.Ok E s) :
    (E.reduce O s = .ok (none, E) ∧ (H.abs E s).Irreducible) ∨
    ∃ k, E.reduce O s = .ok (some (IET.fresh (E.top.drop k) (E.bottom.drop k)),
        { E with top := E.top.take k, bottom := E.bottom.take k, safCache := none }) ∧
      IsCut (H.abs E s) ⟨E.top.take k, E.bottom.take k, H.len s⟩ ⟨E.top.drop k, E.bottom.drop k, H.len s⟩ k := by
  have hv := h.valid
  obtain ⟨k, hk, hk1, hk2, hk3, hk4⟩ := reduceLoop_spec₀ hv.nodup hv.perm hv.ne_nil
  simp only [LawfulLengths.abs] at hk hk2 hk3 hk4
  have hlen : E.bottom.length = E.top.length := hv.perm.length_eq
  by_cases hkt : k = E.top.length
  · left
    subst hkt
    constructor
    · simp [IET.reduce, hk, bind, Except.bind, assertM, hlen, pure, Except.pure]
    · intro j h1 h2; exact hk4 j h1 h2
  · right
    have hcut : IsCut (H.abs E s) ⟨E.top.take k, E.bottom.take k, H.len s⟩ ⟨E.top.drop k, E.bottom.drop k, H.len s⟩ k :=
      ⟨hk1, by simp only [LawfulLengths.abs]; omega, rfl, rfl, hk3.symm, hk4⟩
    refine ⟨k, ?_, hcut⟩
    have hr := hcut.valid_right hv
    have := mk?_spec H h.inv hr (fun a ha => h.dom a (List.mem_of_mem_drop ha))
    simp only [IET.reduce, hk, bind, Except.bind, hkt, if_false, assertM, List.length_take, hlen, this, decide_true, if_true]
    rfl

end model

end Verif
