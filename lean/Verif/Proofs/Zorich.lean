import Verif.Contract
import Verif.Model.IET
import Verif.Proofs.Rauzy
import Mathlib.Tactic.Ring

/-!
# `zorichInduction` is a maximal run of elementary steps
-/

namespace Verif

set_option linter.unusedSectionVars false

section combinatorics

variable {T : Type} [CommRing T] [LinearOrder T] [IsStrictOrderedRing T]

abbrev RauzyRun (E E' : AIET T) : Prop := Relation.ReflTransGen RauzyTop E E'

/-- Partial twist: all of `pre` moves in front of `a`. -/
theorem rauzyRun_partial (a : Label) (t post : List Label) :
    ∀ (pre mid : List Label) (len : Label → T), a ∉ pre → (∀ x ∈ pre, 0 < len x) →
      sumLen len pre < len a →
      RauzyRun ⟨a :: t, pre ++ mid ++ a :: post, len⟩
        ⟨a :: t, mid ++ pre ++ a :: post, shorten len a (sumLen len pre)⟩ := by
  intro pre
  induction pre with
  | nil => intro mid len _ _ _; simp [shorten_zero]; exact .refl
  | cons b pre ih =>
    intro mid len ha hp hlt
    simp only [List.mem_cons, not_or] at ha
    simp only [sumLen_cons] at hlt
    have hpre : 0 ≤ sumLen len pre := sumLen_nonneg fun x hx => hp x (by simp [hx])
    have h1 : RauzyTop ⟨a :: t, b :: (pre ++ mid ++ a :: post), len⟩
        ⟨a :: t, pre ++ mid ++ b :: a :: post, shorten len a (len b)⟩ :=
      RauzyTop.mk a b t (pre ++ mid) post len (by linarith)
    have hc := shorten_congr len (len b) ha.2
    have h2 := ih (mid ++ [b]) (shorten len a (len b)) ha.2
      (fun x hx => by rw [hc x hx]; exact hp x (by simp [hx]))
      (by rw [sumLen_congr hc, shorten_eq]; linarith)
    rw [sumLen_congr hc, shorten_shorten] at h2
    have := Relation.ReflTransGen.head h1 (by simpa using h2)
    simpa using this

/-- `k` full twists. -/
theorem rauzyRun_full (a : Label) (t post pre : List Label) :
    ∀ (k : ℕ) (len : Label → T), a ∉ pre → (∀ x ∈ pre, 0 < len x) →
      (k : T) * sumLen len pre < len a →
      RauzyRun ⟨a :: t, pre ++ a :: post, len⟩
        ⟨a :: t, pre ++ a :: post, shorten len a ((k : T) * sumLen len pre)⟩ := by
  intro k
  induction k with
  | zero => intro len _ _ _; simp [shorten_zero]; exact .refl
  | succ k ih =>
    intro len ha hp hlt
    have hpre : 0 ≤ sumLen len pre := sumLen_nonneg hp
    have hk : (0 : T) ≤ (k : T) * sumLen len pre := mul_nonneg (Nat.cast_nonneg k) hpre
    push_cast at hlt ⊢
    have h1 := rauzyRun_partial a t post pre [] len ha hp (by linarith)
    simp only [List.append_nil, List.nil_append] at h1
    have hc := shorten_congr len (sumLen len pre) ha
    have h2 := ih (shorten len a (sumLen len pre)) ha
      (fun x hx => by rw [hc x hx]; exact hp x hx)
      (by rw [sumLen_congr hc, shorten_eq]; linarith)
    rw [sumLen_congr hc, shorten_shorten] at h2
    have e : sumLen len pre + (k : T) * sumLen len pre = ((k : T) + 1) * sumLen len pre := by ring
    rw [e] at h2
    exact h1.trans h2

end combinatorics

section model

variable {σ T ε : Type} [CommRing T] [LinearOrder T] [IsStrictOrderedRing T] {O : LengthsOps σ T}
  {d : ℕ} {c : T →+ (Fin d → ℚ)}

theorem walkBack_spec (stop : Label) (r : List Label) : ∀ (rp : List Label) (x : Label) (suf : List Label),
    x ≠ stop → stop ∉ rp →
    IET.walkBack stop (rp ++ stop :: r) (x :: suf) = .ok ((stop :: r).reverse, rp.reverse ++ x :: suf) := by
  intro rp
  induction rp with
  | nil =>
    intro x suf hx _
    cases r with
    | nil => simp [IET.walkBack, hx]
    | cons y r => simp [IET.walkBack, hx]
  | cons y rp ih =>
    intro x suf hx hs
    simp only [List.mem_cons, not_or] at hs
    simp only [List.cons_append, IET.walkBack, hx, if_false]
    rw [ih y (x :: suf) (Ne.symm hs.1) hs.2]
    simp

theorem spliceBefore_spec (a : Label) (moved : List Label) : ∀ (l₁ l₂ : List Label), a ∉ l₁ →
    IET.spliceBefore a moved (l₁ ++ a :: l₂) = .ok (l₁ ++ moved ++ a :: l₂) := by
  intro l₁
  induction l₁ with
  | nil => intro l₂ _; simp [IET.spliceBefore]
  | cons x l₁ ih =>
    intro l₂ h
    simp only [List.mem_cons, not_or] at h
    simp only [List.cons_append, IET.spliceBefore, Ne.symm h.1, if_false]
    rw [ih l₂ h.2]
    rfl

/-- What the main loop of `zorichInduction` achieves, starting with `rev.reverse` on the stack. -/
theorem zorichLoop_spec (H : LawfulLengths O c ε) (ctx : Ctx) (a : Label) (t post : List Label) :
    ∀ (rest rev : List Label) (s : σ), H.inv s → H.stack s = rev.reverse → a ∉ rev → a ∉ rest →
      (rev.reverse ++ rest ++ a :: post).Nodup → rev.reverse ++ rest ≠ [] →
      (∀ x ∈ rev.reverse ++ rest ++ a :: post, H.dom s x) →
      (∀ x ∈ rev.reverse ++ rest ++ a :: post, 0 < H.len s x) →
      sumLen (H.len s) rev.reverse < H.len s a →
      ∃ moved tail s', IET.zorichLoop O ctx a rev (rest ++ a :: post) s = .ok ((moved, tail ++ a :: post), s') ∧
        a ∉ tail ∧ moved ++ tail = rev.reverse ++ rest ∧ H.inv s' ∧ H.dom s' = H.dom s ∧ H.stack s' = [] ∧
        RauzyRun ⟨a :: t, rev.reverse ++ rest ++ a :: post, H.len s⟩
          ⟨a :: t, tail ++ moved ++ a :: post, H.len s'⟩ ∧
        (∀ x, x ≠ a → H.len s' x = H.len s x) ∧ 0 < H.len s' a ∧
        (∃ b, (tail ++ moved).head? = some b ∧ H.len s' a ≤ H.len s' b) ∧
        ((moved = [] ∧ H.len s' = H.len s ∧ H.ext s' = H.ext s) ∨
          ∃ b, (rev.reverse ++ rest).head? = some b ∧ H.len s b < H.len s a ∧
            H.ext s' = H.mv ctx a b (H.ext s)) := by
  intro rest
  induction rest with
  | nil =>
    intro rev s hi hst har _ hnd hne hdom hpos hlt
    simp only [List.append_nil] at hne hnd hdom hpos
    have hpre : ∀ x ∈ rev.reverse, 0 < H.len s x := fun x hx => hpos x (by simp at hx ⊢; simp [hx])
    obtain ⟨stop, s', k, pre, l, post', hr, hi', hd', hst', hk, hlen, hp', hle, hs', hstop, hext⟩ :=
      H.subtractRepeated_spec ctx s a hi (hdom a (by simp))
        (fun x hx => hdom x (by rw [hst] at hx; simp at hx ⊢; simp [hx])) (by rw [hst]; simpa using har)
        (by rw [hst]; exact hpre) (by rw [hst]; exact hlt) (by rw [hst]; exact hne)
    rw [hst] at hst' hlen hstop hext
    have hcong := shorten_congr (H.len s) ((k : T) * sumLen (H.len s) rev.reverse + sumLen (H.len s) pre)
      (a := a) (l := rev.reverse) (by simpa using har)
    have hnr : rev.reverse.Nodup := by
      rw [List.nodup_append] at hnd; exact hnd.1
    have har' : a ∉ rev.reverse := by simpa using har
    -- the list after cutting
    have hcut : ∃ moved tail, IET.walkBack stop rev (a :: post) = .ok (moved, tail ++ a :: post) ∧
        moved ++ tail = rev.reverse ∧ tail ++ moved = l :: post' ++ pre := by
      by_cases hpn : pre = []
      · subst hpn
        simp only [if_true, List.nil_append] at hstop hst'
        refine ⟨rev.reverse, [], ?_, by simp, by simp [hst']⟩
        have hrev : ∃ r, rev = stop :: r := by
          have : rev.head? = some stop := by rw [← List.getLast?_reverse, hstop]
          cases rev with
          | nil => simp at this
          | cons x r => simp at this; exact ⟨r, by rw [this]⟩
        obtain ⟨r, rfl⟩ := hrev
        have := walkBack_spec stop r [] a post (by simp at har; exact har.1) (by simp)
        simpa using this
      · simp only [hpn, if_false] at hstop
        obtain ⟨pre', rfl⟩ : ∃ pre', pre = pre' ++ [stop] := by
          refine ⟨pre.dropLast, ?_⟩
          exact (List.dropLast_append_getLast? _ (by rw [← hstop]; rfl)).symm
        have hrev : rev = (l :: post').reverse ++ stop :: pre'.reverse := by
          have := congrArg List.reverse hst'
          simpa using this
        refine ⟨pre' ++ [stop], l :: post', ?_, by rw [hst'], rfl⟩
        have := walkBack_spec stop pre'.reverse (l :: post').reverse a post
          (by intro e; apply har'; rw [hst', e]; simp)
          (by
            rw [hst', List.nodup_append] at hnr
            intro hm
            exact hnr.2.2 stop (by simp) stop (List.mem_reverse.mp hm) rfl)
        rw [← hrev] at this
        simpa using this
    obtain ⟨moved, tail, hw, hmt, htm⟩ := hcut
    refine ⟨moved, tail, s', ?_, ?_, by simpa using hmt, hi', hd', hs', ?_, ?_, hp', ?_, .inr ?_⟩
    · simp only [List.nil_append, IET.zorichLoop, if_true]
      rw [hr]
      simp only [bind, Except.bind]
      rw [hw]
      rfl
    · intro hm; apply har'; rw [← hmt]; simp [hm]
    · rw [hst'] at hlen hlt har' hpre
      simp only [List.append_nil]
      rw [hst', htm]
      have hpre' : ∀ x ∈ pre, 0 < H.len s x := fun x hx => hpre x (by simp [hx])
      have h0 := sumLen_nonneg hpre'
      rw [hlen, shorten_eq] at hp'
      have h1 := rauzyRun_full a t post (pre ++ l :: post') k (H.len s) har' hpre (by linarith)
      have hc := shorten_congr (H.len s) ((k : T) * sumLen (H.len s) (pre ++ l :: post')) (a := a) (l := pre)
        (fun hm => har' (by simp [hm]))
      have h2 := rauzyRun_partial a t post pre (l :: post')
        (shorten (H.len s) a ((k : T) * sumLen (H.len s) (pre ++ l :: post')))
        (fun hm => har' (by simp [hm])) (fun x hx => by rw [hc x hx]; exact hpre' x hx)
        (by rw [sumLen_congr hc, shorten_eq]; linarith)
      rw [sumLen_congr hc, shorten_shorten, ← hlen] at h2
      exact h1.trans h2
    · intro x hx; rw [hlen, shorten_ne _ _ hx]
    · refine ⟨l, by rw [htm]; simp, ?_⟩
      have : H.len s' l = H.len s l := by
        rw [hlen, shorten_ne _ _ (nm har' (by rw [hst']; simp)).symm]
      rw [this]; exact hle
    · simp only [List.append_nil]
      obtain ⟨b, r, hbr⟩ := List.exists_cons_of_ne_nil hne
      refine ⟨b, by rw [hbr]; rfl, ?_, ?_⟩
      · have := le_sumLen hpre (a := b) (by rw [hbr]; simp)
        linarith
      · rw [hext, hbr]
  | cons b rest ih =>
    intro rev s hi hst har harest hnd hne hdom hpos hlt
    simp only [List.mem_cons, not_or] at harest
    have hbr : b ∉ rev.reverse := by
      simp only [List.append_assoc, List.cons_append] at hnd
      rw [List.nodup_append] at hnd
      exact fun hm => hnd.2.2 b hm b (by simp) rfl
    have hb : 0 < H.len s b := hpos b (by simp)
    obtain ⟨s₁, h1, hi1, hd1, hl1, hst1, he1⟩ := H.push_spec s b hi (hdom b (by simp)) (by rw [hst]; exact hbr)
    have hst1' : H.stack s₁ = (b :: rev).reverse := by rw [hst1, hst]; simp
    obtain ⟨r, h2, hr⟩ := H.cmp_spec s₁ a hi1 (by rw [hd1]; exact hdom a (by simp))
      (fun x hx => by
        rw [hd1]; refine hdom x ?_
        rw [hst1'] at hx; simp at hx ⊢; rcases hx with hx | hx <;> simp [hx])
    have hsum : sumLen (H.len s₁) (H.stack s₁) = sumLen (H.len s) rev.reverse + H.len s b := by
      rw [hl1, hst1, hst, sumLen_append]; simp
    rw [hsum, hl1] at hr
    simp only [List.cons_append, IET.zorichLoop, Ne.symm harest.1, if_false, h1, bind, Except.bind, h2]
    by_cases hr0 : 0 ≤ r
    · have hle := hr.mp hr0
      simp only [hr0, if_true]
      obtain ⟨s₂, h3, hi2, hd2, hl2, hst2, he2⟩ := H.pop_spec s₁ rev.reverse b hi1 (by rw [hst1, hst])
      rw [hl1] at hl2; rw [hd1] at hd2; rw [he1] at he2
      obtain ⟨s₃, h4, hi3, hd3, hl3, hst3, he3⟩ := H.subtract_spec ctx s₂ a hi2 (by rw [hd2]; exact hdom a (by simp))
        (fun x hx => by rw [hd2]; rw [hst2] at hx; exact hdom x (by simp at hx ⊢; simp [hx]))
        (by rw [hst2]; simpa using har) (by rw [hst2, hl2]; exact hlt)
      rw [hl2, hst2] at hl3; rw [hd2] at hd3; rw [hst2, he2] at he3
      have har' : a ∉ rev.reverse := by simpa using har
      have hprev : ∀ x ∈ rev.reverse, 0 < H.len s x := fun x hx => hpos x (by simp at hx ⊢; simp [hx])
      refine ⟨rev.reverse, b :: rest, s₃, ?_, ?_, rfl, hi3, hd3, hst3, ?_, ?_, ?_, ?_, ?_⟩
      · rw [h3]; simp only; rw [h4]; rfl
      · simp only [List.mem_cons, not_or]; exact harest
      · rw [hl3]
        exact rauzyRun_partial a t post rev.reverse (b :: rest) (H.len s) har' hprev hlt
      · intro x hx; rw [hl3, shorten_ne _ _ hx]
      · rw [hl3, shorten_eq]; linarith
      · refine ⟨b, by simp, ?_⟩
        rw [hl3, shorten_eq, shorten_ne _ _ (Ne.symm harest.1)]; linarith
      · cases hrv : rev.reverse with
        | nil =>
          left
          refine ⟨rfl, ?_, ?_⟩
          · rw [hl3, hrv]; simp [shorten_zero]
          · rw [he3, hrv]
        | cons b' r' =>
          right
          refine ⟨b', by simp, ?_, ?_⟩
          · have := le_sumLen hprev (a := b') (by rw [hrv]; simp)
            linarith
          · rw [he3, hrv]
    · have hlt' := not_le.mp (fun h => hr0 (hr.mpr h))
      simp only [hr0, if_false]
      obtain ⟨moved, tail, s', g1, g2, g3, g4, g5, g6, g7, g8, g9, g10, g11⟩ := ih (b :: rev) s₁ hi1 hst1'
        (by simp; exact ⟨harest.1, by simpa using har⟩) harest.2 (by simpa using hnd) (by simp)
        (fun x hx => by rw [hd1]; exact hdom x (by simpa using hx))
        (fun x hx => by rw [hl1]; exact hpos x (by simpa using hx))
        (by rw [hl1]; simp only [List.reverse_cons]; rw [sumLen_append]; simpa using hlt')
      rw [hl1] at g7 g8 g11; rw [hd1] at g5; rw [he1] at g11
      refine ⟨moved, tail, s', g1, g2, by simpa using g3, g4, g5, g6, by simpa using g7, g8, g9, g10, ?_⟩
      rcases g11 with ⟨h1, h2, h3⟩ | ⟨b', h1, h2, h3⟩
      · exact .inl ⟨h1, h2, h3⟩
      · exact .inr ⟨b', by simpa using h1, h2, h3⟩

theorem RauzyRun.fwd {E E' : AIET T} (hE : E.Valid) (h : RauzyRun E E') : ∃ δ, Fwd E δ E' := by
  induction h with
  | refl => exact ⟨0, Fwd.refl hE⟩
  | tail _ h ih =>
    obtain ⟨δ, hδ⟩ := ih
    obtain ⟨b, _, hb⟩ := h.fwd hδ.valid'
    exact ⟨_, hδ.trans hb⟩

theorem RauzyRun.valid {E E' : AIET T} (hE : E.Valid) (h : RauzyRun E E') : E'.Valid :=
  (h.fwd hE).choose_spec.valid'

/-- Everything there is to know about `zorichInduction`. -/
structure ZorichSpec (H : LawfulLengths O c ε) (E : IET T) (s : σ) (r : Bool) (E' : IET T) (s' : σ) : Prop where
  ok : H.Ok E' s'
  dom : H.dom s' = H.dom s
  eq : E' = { E with bottom := E'.bottom }
  run : RauzyRun (H.abs E s) (H.abs E' s')
  frame : ∀ x, x ∉ E.top.take 1 → H.len s' x = H.len s x
  final : ∀ a b, E'.top.head? = some a → E'.bottom.head? = some b → H.len s' a ≤ H.len s' b
  ret : ∀ a b, E'.top.head? = some a → E'.bottom.head? = some b → (r = true ↔ H.len s' a = H.len s' b)
  same : E.top.head? = E.bottom.head? → E' = E ∧ s' = s
  ext : (E' = E ∧ H.len s' = H.len s ∧ H.ext s' = H.ext s) ∨
    ∃ a b, E.top.head? = some a ∧ E.bottom.head? = some b ∧ a ≠ b ∧ H.len s b < H.len s a ∧
      H.ext s' = H.mv E.ctx a b (H.ext s)

theorem zorichInduction_spec (H : LawfulLengths O c ε) (E : IET T) (s : σ) (h : H.Ok E s) :
    ∃ r E' s', E.zorichInduction O s = .ok (r, E', s') ∧ ZorichSpec H E s r E' s' := by
  obtain ⟨top, bottom, cache, tracker, sw⟩ := E
  have hv := h.valid
  cases top with
  | nil => exact absurd rfl hv.ne_nil
  | cons a t =>
    cases bottom with
    | nil => exact absurd hv.perm (by simp [LawfulLengths.abs])
    | cons b bs =>
      by_cases hab : a = b
      · subst hab
        refine ⟨true, ⟨a :: t, a :: bs, cache, tracker, sw⟩, s, by simp [IET.zorichInduction], h, rfl, rfl, .refl,
          fun _ _ => rfl, ?_, ?_, fun _ => ⟨rfl, rfl⟩, .inl ⟨rfl, rfl, rfl⟩⟩
        · intro x y hx hy; simp at hx hy; rw [← hx, ← hy]
        · intro x y hx hy; simp at hx hy; rw [← hx, ← hy]; simp
      · have hmem : a ∈ b :: bs := hv.perm.mem_iff.mpr (by simp [LawfulLengths.abs])
        obtain ⟨l, post, hl⟩ := List.append_of_mem hmem
        have hnd : (b :: bs).Nodup := hv.nodup_bottom
        have hal : a ∉ l := by
          rw [hl, List.nodup_append] at hnd
          exact fun hm => hnd.2.2 a hm a (by simp) rfl
        have hln : l ≠ [] := by
          rintro rfl; simp at hl; exact hab hl.1.symm
        have hdom : ∀ x ∈ b :: bs, H.dom s x := fun x hx => h.dom x (hv.perm.mem_iff.mp hx)
        have hpos : ∀ x ∈ b :: bs, 0 < H.len s x := fun x hx => hv.pos_bottom x hx
        obtain ⟨moved, tail, s', g1, g2, g3, g4, g5, g6, g7, g8, g9, ⟨b', g10, g10'⟩, g11⟩ :=
          zorichLoop_spec H ⟨a :: t, sw⟩ a t post l [] s h.inv (by simpa using h.stack) (by simp) hal
            (by simpa using hl ▸ hnd) (by simpa using hln) (fun x hx => hdom x (by rw [hl]; simpa using hx)) (fun x hx => hpos x (by rw [hl]; simpa using hx))
            (by simpa using hpos a hmem)
        simp only [List.reverse_nil, List.nil_append] at g3 g7 g11
        rw [← hl] at g1 g7
        have hsp := spliceBefore_spec a moved tail post g2
        obtain ⟨r', hr'⟩ : ∃ r', tail ++ moved = b' :: r' := by
          cases htm : tail ++ moved with
          | nil => rw [htm] at g10; simp at g10
          | cons x y => rw [htm] at g10; simp at g10; exact ⟨y, by rw [g10]⟩
        have hb' : b' ∈ b :: bs := by
          have : b' ∈ tail ++ moved := by rw [hr']; simp
          rw [hl, ← g3]; simp at this ⊢; rcases this with h | h <;> simp [h]
        obtain ⟨r, hr, hr2⟩ := H.cmp2_spec s' a b' g4 (by rw [g5]; exact hdom a hmem) (by rw [g5]; exact hdom b' hb')
        refine ⟨decide (r = 0), ⟨a :: t, tail ++ moved ++ a :: post, cache, tracker, sw⟩, s', ?_, ?_⟩
        · simp only [IET.zorichInduction, hab, if_false, IET.ctx]
          rw [g1]
          simp only [bind, Except.bind]
          rw [hsp]
          simp only [hr', List.cons_append, hr]
          rfl
        · have hval : (⟨a :: t, tail ++ moved ++ a :: post, H.len s'⟩ : AIET T).Valid := RauzyRun.valid hv g7
          refine ⟨⟨g4, g6, fun x hx => by rw [g5]; exact h.dom x hx, hval, ?_⟩, g5, rfl, g7, ?_, ?_, ?_, ?_, ?_⟩
          · intro x hx
            rw [g5] at hx
            by_cases hxa : x = a
            · subst hxa; exact le_of_lt (hval.pos x (by simp))
            · rw [g8 x (by simpa using hxa)]; exact h.nonneg x hx
          · intro x hx; exact g8 x (by simpa using hx)
          · intro x y hx hy; simp [hr'] at hx hy; rw [← hx, ← hy]; exact g10'
          · intro x y hx hy; simp [hr'] at hx hy; rw [← hx, ← hy]; simp [hr2]
          · intro e; simp at e; exact absurd e hab
          · rcases g11 with ⟨h1, h2, h3⟩ | ⟨x, h1, h2, h3⟩
            · left
              refine ⟨?_, h2, h3⟩
              subst h1
              simp only [List.nil_append] at g3
              simp [g3, hl]
            · right
              have hxb : x = b := by
                cases l with
                | nil => exact absurd rfl hln
                | cons y ys => simp at h1 hl; rw [← h1, ← hl.1]
              subst hxb
              exact ⟨a, x, rfl, rfl, hab, h2, h3⟩

end model

end Verif
