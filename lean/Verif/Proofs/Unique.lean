import Verif.Proofs.Found
import Verif.Proofs.Confluence

/-!
# Complete decompositions

Rauzy induction does not create orbits between end points.  Without such orbits nothing else than Rauzy induction can happen to a transformation, so a decomposition into
transformations without such orbits is unique up to Rauzy induction.
-/

namespace Verif

set_option linter.unusedSectionVars false

variable {T : Type} [CommRing T] [LinearOrder T] [IsStrictOrderedRing T]

theorem FirstReturn.exists_iter {R : T → T → Prop} {S : T → Prop} {x y : T} (h : FirstReturn R S x y) : ∃ n, Iter R n x y := by
  induction h with
  | now h1 _ => exact ⟨1, _, h1, rfl⟩
  | later h1 _ _ ih =>
    obtain ⟨n, hn⟩ := ih
    exact ⟨n + 1, _, h1, hn⟩

/-- An orbit of the first return map is part of an orbit. -/
theorem Fwd.iter_back {A B : AIET T} {δ : T} (h : Fwd A δ B) : ∀ {n : ℕ} {x y : T}, Iter B.Maps n x y → ∃ n', Iter A.Maps n' (x + δ) (y + δ)
  | 0, x, y, hn => ⟨0, by rw [show x = y from hn]; rfl⟩
  | n + 1, x, y, ⟨z, h1, h2⟩ => by
    obtain ⟨k, hk⟩ := (h.fwd _ _ h1).exists_iter
    obtain ⟨m, hm⟩ := h.iter_back h2
    exact ⟨k + m, hk.add hm⟩

theorem RauzyTop.joined_back {A B : AIET T} (hA : A.Valid) (h : RauzyTop A B) {n : ℕ} {e d : T} (hj : Joined B n e d) :
    ∃ n' e' d', Joined A n' e' d' := by
  cases h with
  | mk a b t l₁ l₂ len hlt =>
    have hs := hA.split
    have hpb : 0 < len b := hA.pos b (by simp [hs.b_t])
    have hpos : ∀ c ∈ l₁, 0 < len c := fun c hc => hA.pos_bottom c (by simp [hc])
    have hF : Fwd (⟨a :: t, b :: (l₁ ++ a :: l₂), len⟩ : AIET T) (len b) ⟨a :: t, l₁ ++ b :: a :: l₂, shorten len a (len b)⟩ := by
      obtain ⟨b', -, hF⟩ := RauzyTop.fwd hA (.mk a b t l₁ l₂ len hlt)
      have h1 := hF.total_eq
      have h2 : (⟨a :: t, l₁ ++ b :: a :: l₂, shorten len a (len b)⟩ : AIET T).total + len b = (⟨a :: t, b :: (l₁ ++ a :: l₂), len⟩ : AIET T).total := by
        unfold AIET.total
        simp only [sumLen]
        rw [shorten_eq, sumLen_congr (shorten_congr len (len b) hs.a_t)]
        ring
      have h3 : len b' = len b := by
        simp only at h1
        linarith
      simp only [h3] at hF
      exact hF
    obtain ⟨⟨cb, hcb, he⟩, ⟨ct, hct, hd⟩, e0, d0, hit⟩ := hj
    simp only at hcb hct he hd
    obtain ⟨m, hm⟩ := hF.iter_back hit
    -- the end point on top
    have hcta : ct ≠ a := by
      rintro rfl
      rw [off_cons_self] at hd
      exact absurd d0 (by rw [hd]; exact lt_irrefl _)
    have hctt : ct ∈ t := by simpa [hcta] using hct
    have htop : ∃ c ∈ a :: t, d + len b = off len (a :: t) c := by
      refine ⟨ct, hct, ?_⟩
      rw [hd, hs.off_t _ hctt, hs.off_t _ hctt, shorten_eq, off_congr (shorten_congr len (len b) hs.a_t)]
      ring
    have hl₁ := sumLen_congr (shorten_congr len (len b) hs.a_l₁)
    have hbb : shorten len a (len b) b = len b := shorten_congr len (len b) (l := [b]) (by simpa using hs.b_a.symm) b (by simp)
    -- the end point at the bottom
    by_cases hca : cb = a
    · subst hca
      have hl := sumLen_nonneg hpos
      have hmap : (⟨cb :: t, b :: (l₁ ++ cb :: l₂), len⟩ : AIET T).Maps (len b) (e + len b) := by
        refine ⟨cb, by simp, ?_, ?_, ?_⟩
        · simp only [off_cons_self]; exact hpb.le
        · simp only [off_cons_self]; linarith
        · simp only [off_cons_self]
          rw [he, hs.off'_a, hl₁, hbb, hs.off_a]
          ring
      refine ⟨m + 1, len b, d + len b, ⟨?_, htop, hpb, by linarith, _, hmap, hm⟩⟩
      cases l₁ with
      | nil => exact ⟨cb, by simp, by rw [hs.off_a]; simp [sumLen]⟩
      | cons c₁ l₁ => exact ⟨c₁, by simp, by simp only; rw [hs.off_l₁ _ (by simp), off_cons_self]; ring⟩
    · refine ⟨m, e + len b, d + len b, ⟨?_, htop, by linarith, by linarith, hm⟩⟩
      have hcb : cb ∈ l₁ ∨ cb = b ∨ cb ∈ l₂ := by simpa [hca] using hcb
      rcases hcb with h | h | h
      · refine ⟨cb, by simp [h], ?_⟩
        simp only
        rw [he, hs.off_l₁ _ h, hs.off'_l₁ _ h, off_congr (shorten_congr len (len b) hs.a_l₁)]
        ring
      · subst h
        refine ⟨a, by simp, ?_⟩
        simp only
        rw [he, hs.off_a, hs.off'_b, hl₁]
        ring
      · have hcl : cb ∉ l₁ := fun h' => hs.disj _ h' h
        refine ⟨cb, by simp [h], ?_⟩
        simp only
        rw [he, hs.off_l₂ _ hcl h, hs.off'_l₂ _ hcl h, hl₁, shorten_eq, off_congr (shorten_congr len (len b) hs.a_l₂), hbb]
        ring

theorem RauzyStep.joined_back {A B : AIET T} (hA : A.Valid) (h : RauzyStep A B) {n : ℕ} {e d : T} (hj : Joined B n e d) :
    ∃ n' e' d', Joined A n' e' d' := by
  have hB : B.Valid := Steps.valid hA (.single h)
  rcases h with h | h
  · exact h.joined_back hA hj
  · obtain ⟨n', e', d', h1⟩ := h.joined_back hA.inv (hj.inv hB)
    have := h1.inv hA.inv
    rw [AIET.inv_inv] at this
    exact ⟨n', d', e', this⟩

theorem Joined.agree {A B : AIET T} (hA : A.Valid) (hB : A.Agree B) {n : ℕ} {e d : T} (h : Joined A n e d) : Joined B n e d := by
  obtain ⟨⟨b, hb, he⟩, ⟨t, ht, hd⟩, h3, h4, h5⟩ := h
  refine ⟨⟨b, hB.2.1 ▸ hb, by rw [he, hB.off_bottom hA]⟩, ⟨t, hB.1 ▸ ht, by rw [hd, hB.off_top]⟩, h3, h4, ?_⟩
  rw [← hB.maps hA]
  exact h5

theorem off_getElem {len : Label → T} : ∀ {l : List Label} {k : ℕ} (hk : k < l.length), l.Nodup → off len l l[k] = sumLen len (l.take k)
  | a :: l, 0, _, _ => by simp [off_cons_self, sumLen]
  | a :: l, k + 1, hk, hn => by
    have hk' : k < l.length := by simpa using hk
    have hne : l[k] ≠ a := fun e => (List.nodup_cons.mp hn).1 (e ▸ List.getElem_mem hk')
    have := off_getElem (len := len) hk' (List.nodup_cons.mp hn).2
    simp only [List.getElem_cons_succ, List.take_succ_cons, sumLen]
    rw [off_cons_ne len (Ne.symm hne), this]

/-- Where the transformation can be cut, an end point on top is an end point at the bottom. -/
theorem IsCut.joined {A l r : AIET T} {k : ℕ} (hA : A.Valid) (h : IsCut A l r k) : ∃ e, Joined A 0 e e := by
  have hl := h.valid_left hA
  obtain ⟨h1, h2, rfl, rfl, h5, h6⟩ := h
  have hk : k < A.bottom.length := by rw [hA.perm.length_eq]; exact h2
  have e1 := off_getElem (len := A.len) h2 hA.nodup
  have e2 := off_getElem (len := A.len) hk hA.nodup_bottom
  have e3 : sumLen A.len (A.bottom.take k) = sumLen A.len (A.top.take k) := hl.total_inv
  have e4 : 0 < sumLen A.len (A.top.take k) := hl.total_pos
  exact ⟨sumLen A.len (A.top.take k), ⟨_, List.getElem_mem hk, by rw [e2, e3]⟩, ⟨_, List.getElem_mem h2, by rw [e1]⟩, e4, e4, rfl⟩

/-- When two intervals that are next to each other can be merged, then an end point on top is an end point at the bottom. -/
theorem MergeTop.joined {A C : AIET T} (hA : A.Valid) (h : MergeTop A C) : ∃ e, Joined A 0 e e := by
  obtain ⟨t, b, top, l₁, l₂, len, h⟩ := h
  have hs := hA.split
  have hpt : 0 < len t := hA.pos t (by simp)
  obtain ⟨t', top', rfl⟩ : ∃ t' top', top = t' :: top' := List.exists_cons_of_ne_nil (by rintro rfl; simpa using hs.b_t)
  refine ⟨len t, ?_, ⟨t', by simp, by rw [hs.off_t _ (by simp), off_cons_self, add_zero]⟩, hpt, hpt, rfl⟩
  cases l₁ with
  | nil => exact ⟨t, by simp, by rw [hs.off_a]; simp [sumLen, h]⟩
  | cons c₁ l₁ => exact ⟨c₁, by simp, by simp only; rw [hs.off_l₁ _ (by simp), off_cons_self, h, add_zero]⟩

/-! ### Transformations without connections -/

/-- There are no orbits between end points. -/
def AIET.Free (A : AIET T) : Prop := ∀ n e d, ¬ Joined A n e d

/-- Up to the lengths of labels that do not show up, the second transformation comes from the first one by Rauzy induction. -/
def Later (A B : AIET T) : Prop := ∃ C, Steps A C ∧ C.Agree B

theorem Later.refl (A : AIET T) : Later A A := ⟨A, .refl, .refl A⟩

theorem Later.trans {A B C : AIET T} (hA : A.Valid) (h : Later A B) (h' : Later B C) : Later A C := by
  obtain ⟨B', h1, h2⟩ := h
  obtain ⟨C', h3, h4⟩ := h'
  obtain ⟨C'', h5, h6⟩ := Steps.agree h3 (h2.valid (Steps.valid hA h1)) h2.symm
  exact ⟨C'', h1.trans h5, h6.symm.trans h4⟩

theorem AIET.Free.agree {A B : AIET T} (hA : A.Valid) (h : A.Free) (hB : A.Agree B) : B.Free :=
  fun n e d hj => h n e d (hj.agree (hB.valid hA) hB.symm)

/-- Nothing else than Rauzy induction can happen to a transformation without connections. -/
theorem Ev.free {A : AIET T} {l : Multiset (AIET T)} (hA : A.Valid) (hf : A.Free) (h : Ev A l) : ∃ B, l = {B} ∧ B.Valid ∧ B.Free ∧ Later A B := by
  cases h with
  | @rauzy B h =>
    have hB : B.Valid := Steps.valid hA (.single h)
    refine ⟨_, rfl, hB.norm, AIET.Free.agree hB (fun n e d hj => ?_) B.agree_norm, B, .single h, B.agree_norm⟩
    obtain ⟨n', e', d', h'⟩ := h.joined_back hA hj
    exact hf _ _ _ h'
  | split h =>
    obtain ⟨e, he⟩ := h.joined hA
    exact absurd he (hf _ _ _)
  | merge _ h =>
    obtain ⟨e, he⟩ := h.joined hA
    exact absurd he (hf _ _ _)

def AllFree (M : Multiset (AIET T)) : Prop := ∀ A ∈ M, A.Valid ∧ A.Free

theorem Rw.free {M M' : Multiset (AIET T)} (hM : AllFree M) (h : Rw M M') : AllFree M' ∧ Multiset.Rel Later M M' := by
  obtain ⟨A, N, l, rfl, -, h2, rfl⟩ := h
  obtain ⟨hA, hf⟩ := hM A (Multiset.mem_cons_self _ _)
  obtain ⟨B, rfl, h3, h4, h5⟩ := h2.free hA hf
  rw [Multiset.singleton_add]
  refine ⟨?_, .cons h5 (Multiset.rel_refl_of_refl_on fun _ _ => .refl _)⟩
  intro C hC
  rcases Multiset.mem_cons.mp hC with rfl | hC
  · exact ⟨h3, h4⟩
  · exact hM C (Multiset.mem_cons_of_mem hC)

theorem rel_later_trans : ∀ {M N K : Multiset (AIET T)}, AllFree M → Multiset.Rel Later M N → Multiset.Rel Later N K → Multiset.Rel Later M K := by
  intro M N K hM h
  induction h generalizing K with
  | zero => exact id
  | @cons A B M N h1 _ ih =>
    intro h'
    obtain ⟨C, K', h3, h4, rfl⟩ := Multiset.rel_cons_left.mp h'
    exact .cons (h1.trans (hM A (Multiset.mem_cons_self _ _)).1 h3) (ih (fun X hX => hM X (Multiset.mem_cons_of_mem hX)) h4)

theorem Rws.free {M M' : Multiset (AIET T)} (hM : AllFree M) (h : Rws M M') : AllFree M' ∧ Multiset.Rel Later M M' := by
  induction h with
  | refl => exact ⟨hM, Multiset.rel_refl_of_refl_on fun _ _ => .refl _⟩
  | tail _ h ih =>
    obtain ⟨h1, h2⟩ := h.free ih.1
    exact ⟨h1, rel_later_trans hM ih.2 h2⟩

/-- Two transformations that become the same after some Rauzy induction. -/
def Kin (A B : AIET T) : Prop := ∃ C C', Steps A C ∧ Steps B C' ∧ C.Agree C'

theorem rel_kin : ∀ {M N K : Multiset (AIET T)}, Multiset.Rel Later M K → Multiset.Rel Later N K → Multiset.Rel Kin M N := by
  intro M N K h
  induction h generalizing N with
  | zero =>
    intro h'
    rw [Multiset.rel_zero_right.mp h']
    exact .zero
  | @cons A C M K h1 _ ih =>
    intro h'
    obtain ⟨B, N', h3, h4, rfl⟩ := Multiset.rel_cons_right.mp h'
    obtain ⟨C₁, g1, g2⟩ := h1
    obtain ⟨C₂, g3, g4⟩ := h3
    exact .cons ⟨C₁, C₂, g1, g3, g2.trans g4.symm⟩ (ih h4)

/-- Any two decompositions into transformations without connections are the same up to Rauzy induction. -/
theorem Rws.kin {M M₁ M₂ : Multiset (AIET T)} (h₁ : Rws M M₁) (h₂ : Rws M M₂) (hM₁ : AllFree M₁) (hM₂ : AllFree M₂) : Multiset.Rel Kin M₁ M₂ := by
  obtain ⟨K, k1, k2⟩ := h₁.join h₂
  exact rel_kin (k1.free hM₁).2 (k2.free hM₂).2

theorem Kin.perm {A B : AIET T} (h : Kin A B) : A.top.Perm B.top := by
  obtain ⟨C, C', h1, h2, h3⟩ := h
  have := h1.top_perm.symm
  rw [h3.1] at this
  exact this.trans h2.top_perm

theorem Kin.saf {A B : AIET T} (hA : A.Valid) (hB : B.Valid) (h : Kin A B) (φ ψ : T →+ ℚ) : A.saf φ ψ = B.saf φ ψ := by
  obtain ⟨C, C', h1, h2, h3⟩ := h
  rw [← Steps.saf_eq φ ψ hA h1, h3.saf (Steps.valid hA h1), Steps.saf_eq φ ψ hB h2]

theorem exists_forall₂ {α β : Type} {r : α → β → Prop} : ∀ {l : List α} {l' : List β}, Multiset.Rel r (l : Multiset α) (l' : Multiset β) → ∃ k, k.Perm l' ∧ List.Forall₂ r l k
  | [], l', h => by
    have : l' = [] := by simpa using Multiset.rel_zero_left.mp h
    exact ⟨[], by rw [this], .nil⟩
  | a :: l, l', h => by
    rw [← Multiset.cons_coe] at h
    obtain ⟨b, M, h1, h2, h3⟩ := Multiset.rel_cons_left.mp h
    obtain ⟨m, rfl⟩ := Quot.exists_rep M
    obtain ⟨k, h4, h5⟩ := exists_forall₂ h2
    refine ⟨b :: k, ?_, .cons h1 h5⟩
    exact (h4.cons b).trans (Multiset.coe_eq_coe.mp (by rw [← Multiset.cons_coe]; exact h3.symm))

end Verif
