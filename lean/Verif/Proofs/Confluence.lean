import Mathlib.Data.Multiset.Filter
import Mathlib.Data.Multiset.UnionInter
import Verif.Proofs.Renormalize
import Verif.Props.Rounds

/-!
# The order of decomposition steps does not matter

Induction, splitting and removing connections as a rewriting system on multisets of interval exchange transformations: it is confluent.
-/

namespace Verif

set_option linter.unusedSectionVars false

variable {σ T ε : Type} [CommRing T] [LinearOrder T] [IsStrictOrderedRing T] {O : LengthsOps σ T} {d : ℕ} {c : T →+ (Fin d → ℚ)}

/-! ### Forgetting the lengths of other labels -/

/-- The same transformation with lengths zero for all labels which do not show up. -/
def AIET.norm (A : AIET T) : AIET T := ⟨A.top, A.bottom, fun a => if a ∈ A.top then A.len a else 0⟩

theorem AIET.agree_norm (A : AIET T) : A.Agree A.norm := ⟨rfl, rfl, fun a ha => by simp [AIET.norm, ha]⟩

theorem AIET.Agree.norm {A B : AIET T} (h : A.Agree B) : A.norm = B.norm := by
  obtain ⟨t, b, len⟩ := A
  obtain ⟨t', b', len'⟩ := B
  obtain ⟨h1, h2, h3⟩ := h
  simp only at h1 h2 h3
  subst h1 h2
  simp only [AIET.norm, AIET.mk.injEq, true_and]
  funext a
  split
  · exact h3 a ‹_›
  · rfl

theorem AIET.norm_norm (A : AIET T) : A.norm.norm = A.norm := A.agree_norm.norm.symm

theorem AIET.Valid.norm {A : AIET T} (h : A.Valid) : A.norm.Valid := A.agree_norm.valid h

/-! ### A step for a single transformation -/

/-- What can happen to a transformation: an elementary step of the induction, a split or the removal of a connection. -/
inductive Ev : AIET T → Multiset (AIET T) → Prop
  | rauzy {A B : AIET T} : RauzyStep A B → Ev A {B.norm}
  | split {A l r : AIET T} {k : ℕ} : IsCut A l r k → Ev A {l.norm, r.norm}
  | merge {A C : AIET T} : A.Irreducible → MergeTop A C → Ev A {C.norm}

theorem IsCut.agree {A l r B : AIET T} {k : ℕ} (hA : A.Valid) (h : IsCut A l r k) (hB : A.Agree B) :
    ∃ l' r', IsCut B l' r' k ∧ l.Agree l' ∧ r.Agree r' := by
  obtain ⟨h1, h2, h3, h4, h5, h6⟩ := h
  obtain ⟨t, b, len⟩ := A
  obtain ⟨t', b', len'⟩ := B
  obtain ⟨e1, e2, e3⟩ := hB
  simp only at e1 e2 e3
  subst e1 e2
  subst h3 h4
  exact ⟨⟨t.take k, b.take k, len'⟩, ⟨t.drop k, b.drop k, len'⟩, ⟨h1, h2, rfl, rfl, h5, h6⟩,
    ⟨rfl, rfl, fun a ha => e3 a (List.mem_of_mem_take ha)⟩, ⟨rfl, rfl, fun a ha => e3 a (List.mem_of_mem_drop ha)⟩⟩

theorem MergeTop.agree {A C B : AIET T} (hA : A.Valid) (h : MergeTop A C) (hB : A.Agree B) : ∃ C', MergeTop B C' ∧ C.Agree C' := by
  obtain ⟨t, b, top, l₁, l₂, len, h⟩ := h
  obtain ⟨t', b', len'⟩ := B
  obtain ⟨e1, e2, e3⟩ := hB
  simp only at e1 e2 e3
  subst e1 e2
  have ht := e3 t (by simp)
  have hb := e3 b (hA.perm.mem_iff.mp (by simp))
  exact ⟨_, .mk t b top l₁ l₂ len' (by rw [← ht, ← hb]; exact h), rfl, rfl, fun a ha => e3 a (by simp [ha])⟩

theorem Ev.agree {A B : AIET T} {l : Multiset (AIET T)} (hA : A.Valid) (h : Ev A l) (hB : A.Agree B) : Ev B l := by
  cases h with
  | rauzy h =>
    obtain ⟨F, h1, h2⟩ := h.agree hA hB
    rw [h2.norm]
    exact .rauzy h1
  | split h =>
    obtain ⟨l', r', h1, h2, h3⟩ := h.agree hA hB
    rw [h2.norm, h3.norm]
    exact .split h1
  | merge hi h =>
    obtain ⟨C', h1, h2⟩ := h.agree hA hB
    rw [h2.norm]
    refine .merge (fun k h1 h2 => ?_) h1
    rw [← hB.1, ← hB.2.1]
    exact hi k h1 (by rw [hB.1]; exact h2)

theorem MergeTop.unique {A B C : AIET T} (hA : A.Valid) (h : MergeTop A B) (h' : MergeTop A C) : B = C := by
  have hn := hA.inv.nodup
  generalize hA' : A = A' at h'
  cases h with
  | mk a b t l₁ l₂ len hlt =>
    cases h' with
    | mk a' b' t' m₁ m₂ len' hlt' =>
      injection hA' with e1 e2 e3
      injection e1 with e1 e4
      subst e1 e4 e3
      injection e2 with e2 e5
      subst e2
      have hn' : (l₁ ++ a :: l₂).Nodup := (List.nodup_cons.mp hn).2
      obtain ⟨rfl, rfl⟩ := split_unique hn' e5
      rfl

theorem MergeTop.level {A B : AIET T} (h : MergeTop A B) : A.Level := by
  obtain ⟨t, b, top, l₁, l₂, len, h⟩ := h
  exact ⟨t, b, rfl, rfl, h.symm⟩

theorem RauzyStep.not_level {A B : AIET T} (h : RauzyStep A B) : ¬ A.Level := by
  have key : ∀ {A B : AIET T}, RauzyTop A B → ¬ A.Level := by
    intro A B h
    obtain ⟨a, b, t, l₁, l₂, len, h⟩ := h
    rintro ⟨x, y, hx, hy, e⟩
    cases hx
    cases hy
    exact absurd e (ne_of_gt h)
  rcases h with h | h
  · exact key h
  · rw [← AIET.level_inv]; exact key h

theorem IsCut.unique {A l r l' r' : AIET T} {k k' : ℕ} (h : IsCut A l r k) (h' : IsCut A l' r' k') : l = l' ∧ r = r' := by
  obtain ⟨h1, h2, rfl, rfl, h5, h6⟩ := h
  obtain ⟨h1', h2', rfl, rfl, h5', h6'⟩ := h'
  have : k = k' := by
    rcases lt_trichotomy k k' with hlt | rfl | hlt
    · exact absurd h5.symm (h6' k h1 hlt)
    · rfl
    · exact absurd h5'.symm (h6 k' h1' hlt)
  subst this
  exact ⟨rfl, rfl⟩

theorem IsCut.not_irreducible {A l r : AIET T} {k : ℕ} (h : IsCut A l r k) : ¬ A.Irreducible := by
  obtain ⟨h1, h2, rfl, rfl, h5, h6⟩ := h
  exact fun hi => hi k h1 h2 h5.symm

theorem IsCut.inv {A l r : AIET T} {k : ℕ} (hA : A.Valid) (h : IsCut A l r k) : IsCut A.inv l.inv r.inv k := by
  obtain ⟨h1, h2, rfl, rfl, h5, h6⟩ := h
  exact ⟨h1, by show k < A.bottom.length; rw [hA.perm.length_eq]; exact h2, rfl, rfl, h5.symm, fun j h1 h2 hp => h6 j h1 h2 hp.symm⟩

/-- The steps of the induction only see the left part. -/
theorem IsCut.rauzyTop {A B l r : AIET T} {k : ℕ} (hA : A.Valid) (h : IsCut A l r k) (hB : RauzyTop A B) :
    ∃ l' r', IsCut B l' r' k ∧ RauzyTop l l' ∧ r.Agree r' := by
  obtain ⟨h1, h2, rfl, rfl, h5, h6⟩ := h
  obtain ⟨a, b, t, l₁, l₂, len, hlt⟩ := hB
  have hab : a ≠ b := by rintro rfl; exact lt_irrefl _ hlt
  have hn : (a :: t).Nodup := hA.nodup
  have hnb : (b :: (l₁ ++ a :: l₂)).Nodup := hA.inv.nodup
  have hal : a ∉ l₁ := by
    have := (List.nodup_cons.mp hnb).2
    rw [List.nodup_append] at this
    intro ha
    exact this.2.2 a ha a (by simp) rfl
  have key : ∀ j, 0 < j → a ∈ (b :: (l₁ ++ a :: l₂)).take j → ∃ m, j = l₁.length + 2 + m := by
    intro j hj ha
    by_contra hne
    have hj' : j ≤ l₁.length + 1 := by
      by_contra hgt
      exact hne ⟨j - (l₁.length + 2), by omega⟩
    obtain ⟨i, rfl⟩ : ∃ i, j = i + 1 := ⟨j - 1, by omega⟩
    rw [List.take_succ_cons, List.take_append_of_le_length (by omega), List.mem_cons] at ha
    rcases ha with ha | ha
    · exact hab ha
    · exact hal (List.mem_of_mem_take ha)
  have key' : ∀ j, 0 < j → a ∈ (l₁ ++ b :: a :: l₂).take j → ∃ m, j = l₁.length + 2 + m := by
    intro j hj ha
    by_contra hne
    have hj' : j ≤ l₁.length + 1 := by
      by_contra hgt
      exact hne ⟨j - (l₁.length + 2), by omega⟩
    have hsub : a ∈ (l₁ ++ b :: a :: l₂).take (l₁.length + 1) := (List.take_prefix_take_left hj').subset ha
    rw [List.take_length_add_append] at hsub
    simp only [List.take_succ_cons, List.take_zero, List.mem_append, List.mem_singleton] at hsub
    exact hsub.elim hal hab
  have t1 : ∀ m, (b :: (l₁ ++ a :: l₂)).take (l₁.length + 2 + m) = b :: (l₁ ++ a :: l₂.take m) := by
    intro m
    rw [show l₁.length + 2 + m = (l₁.length + (m + 1)) + 1 by omega, List.take_succ_cons, List.take_length_add_append, List.take_succ_cons]
  have t2 : ∀ m, (l₁ ++ b :: a :: l₂).take (l₁.length + 2 + m) = l₁ ++ b :: a :: l₂.take m := by
    intro m
    rw [show l₁.length + 2 + m = l₁.length + (m + 2) by omega, List.take_length_add_append, List.take_succ_cons, List.take_succ_cons]
  have hp : ∀ m, (b :: (l₁ ++ a :: l₂.take m)).Perm (l₁ ++ b :: a :: l₂.take m) := fun m => List.perm_middle.symm
  have hka : a ∈ (a :: t).take k := by
    obtain ⟨i, rfl⟩ : ∃ i, k = i + 1 := ⟨k - 1, by omega⟩
    simp
  obtain ⟨m, hm⟩ := key k h1 (h5.mem_iff.mpr hka)
  have hdrop : (b :: (l₁ ++ a :: l₂)).drop k = (l₁ ++ b :: a :: l₂).drop k := by
    rw [hm, show l₁.length + 2 + m = (l₁.length + (m + 1)) + 1 by omega, List.drop_succ_cons, List.drop_length_add_append, List.drop_succ_cons,
      show (l₁.length + (m + 1)) + 1 = l₁.length + (m + 2) by omega, List.drop_length_add_append, List.drop_succ_cons, List.drop_succ_cons]
  have hanot : a ∉ (a :: t).drop k := by
    have hd : List.Disjoint ((a :: t).take k) ((a :: t).drop k) := by
      have := hn
      rw [← List.take_append_drop k (a :: t)] at this
      exact List.disjoint_of_nodup_append this
    exact hd hka
  refine ⟨_, _, ⟨h1, h2, rfl, rfl, ?_, ?_⟩, ?_, ?_⟩
  · simp only
    rw [hm, t2, ← hm]
    refine (hp m).symm.trans ?_
    have := h5
    simp only at this
    rw [hm, t1] at this
    rw [hm]
    exact this
  · intro j hj hjk hperm
    simp only at hperm
    have : a ∈ (a :: t).take j := by
      obtain ⟨i, rfl⟩ : ∃ i, j = i + 1 := ⟨j - 1, by omega⟩
      simp
    obtain ⟨n, hn'⟩ := key' j hj (hperm.mem_iff.mp this)
    refine h6 j hj hjk ?_
    simp only
    refine hperm.trans ?_
    rw [hn', t1, t2]
    exact (hp n).symm
  · simp only
    obtain ⟨i, hi⟩ : ∃ i, k = i + 1 := ⟨k - 1, by omega⟩
    have e1 : (a :: t).take k = a :: t.take i := by rw [hi, List.take_succ_cons]
    have e2 : (b :: (l₁ ++ a :: l₂)).take k = b :: (l₁ ++ a :: l₂.take m) := by rw [hm, t1]
    have e3 : (l₁ ++ b :: a :: l₂).take k = l₁ ++ b :: a :: l₂.take m := by rw [hm, t2]
    rw [e1, e2, e3]
    exact .mk a b _ l₁ _ len hlt
  · refine ⟨rfl, hdrop, fun x hx => ?_⟩
    simp only [shorten]
    rw [if_neg]
    rintro rfl
    exact hanot hx

theorem IsCut.rauzyStep {A B l r : AIET T} {k : ℕ} (hA : A.Valid) (h : IsCut A l r k) (hB : RauzyStep A B) :
    ∃ l' r', IsCut B l' r' k ∧ RauzyStep l l' ∧ r.Agree r' := by
  rcases hB with hB | hB
  · obtain ⟨l', r', h1, h2, h3⟩ := h.rauzyTop hA hB
    exact ⟨l', r', h1, .inl h2, h3⟩
  · obtain ⟨l', r', h1, h2, h3⟩ := (h.inv hA).rauzyTop hA.inv hB
    have hBv : B.inv.Valid := RauzyRun.valid hA.inv (.single hB)
    exact ⟨l'.inv, r'.inv, h1.inv hBv, .inr h2, h3.inv (h.inv hA |>.valid_right hA.inv)⟩

/-! ### The rewriting system -/

/-- Something happens to one of the transformations. -/
def Rw (M M' : Multiset (AIET T)) : Prop := ∃ A N l, M = A ::ₘ N ∧ A.Valid ∧ Ev A l ∧ M' = l + N

abbrev Rws : Multiset (AIET T) → Multiset (AIET T) → Prop := Relation.ReflTransGen Rw

theorem Rw.add {M M' : Multiset (AIET T)} (h : Rw M M') (K : Multiset (AIET T)) : Rw (M + K) (M' + K) := by
  obtain ⟨A, N, l, rfl, h1, h2, rfl⟩ := h
  exact ⟨A, N + K, l, by rw [Multiset.cons_add], h1, h2, by rw [add_assoc]⟩

theorem Rws.add {M M' : Multiset (AIET T)} (h : Rws M M') (K : Multiset (AIET T)) : Rws (M + K) (M' + K) := by
  induction h with
  | refl => exact .refl
  | tail _ h ih => exact ih.tail (h.add K)

theorem Ev.rw {A : AIET T} {l : Multiset (AIET T)} (hA : A.Valid) (h : Ev A l) : Rw {A.norm} l :=
  ⟨A.norm, 0, l, rfl, hA.norm, h.agree hA A.agree_norm, by rw [add_zero]⟩

theorem Ev.diamond {A : AIET T} (hA : A.Valid) {l l' : Multiset (AIET T)} (h : Ev A l) (h' : Ev A l') :
    l = l' ∨ ∃ m, Rw l m ∧ Rw l' m := by
  have key : ∀ {B l r : AIET T} {k : ℕ}, RauzyStep A B → IsCut A l r k → ∃ m, Rw {B.norm} m ∧ Rw {l.norm, r.norm} m := by
    intro B l r k hB hc
    obtain ⟨l', r', h1, h2, h3⟩ := hc.rauzyStep hA hB
    refine ⟨{l'.norm, r'.norm}, (Ev.split h1).rw (Steps.valid hA (.single hB)), ?_⟩
    rw [← h3.norm]
    have := ((Ev.rauzy h2).rw (hc.valid_left hA)).add {r.norm}
    simpa [Multiset.insert_eq_cons] using this
  cases h with
  | rauzy h =>
    cases h' with
    | rauzy h' => exact .inl (by rw [RauzyStep.unique hA h h'])
    | split h' => exact .inr (key h h')
    | merge _ h' => exact absurd h'.level h.not_level
  | split h =>
    cases h' with
    | rauzy h' => obtain ⟨m, h1, h2⟩ := key h' h; exact .inr ⟨m, h2, h1⟩
    | split h' => obtain ⟨rfl, rfl⟩ := h.unique h'; exact .inl rfl
    | merge hi _ => exact absurd hi h.not_irreducible
  | merge hi h =>
    cases h' with
    | rauzy h' => exact absurd h.level h'.not_level
    | split h' => exact absurd hi h'.not_irreducible
    | merge _ h' => exact .inl (by rw [MergeTop.unique hA h h'])

theorem Rw.diamond {M M₁ M₂ : Multiset (AIET T)} (h₁ : Rw M M₁) (h₂ : Rw M M₂) : M₁ = M₂ ∨ ∃ K, Rw M₁ K ∧ Rw M₂ K := by
  obtain ⟨A, N, l, rfl, hA, hl, rfl⟩ := h₁
  obtain ⟨A', N', l', he, hA', hl', rfl⟩ := h₂
  rcases Multiset.cons_eq_cons.mp he with ⟨rfl, rfl⟩ | ⟨_, K, rfl, rfl⟩
  · rcases hl.diamond hA hl' with rfl | ⟨m, h1, h2⟩
    · exact .inl rfl
    · exact .inr ⟨m + N, h1.add N, h2.add N⟩
  · right
    refine ⟨l + (l' + K), ⟨A', l + K, l', by rw [Multiset.add_cons], hA', hl', by rw [add_left_comm]⟩,
      ⟨A, l' + K, l, by rw [Multiset.add_cons], hA, hl, rfl⟩⟩

theorem Rws.join {M M₁ M₂ : Multiset (AIET T)} (h₁ : Rws M M₁) (h₂ : Rws M M₂) : ∃ K, Rws M₁ K ∧ Rws M₂ K := by
  refine Relation.church_rosser (fun a b c hb hc => ?_) h₁ h₂
  rcases hb.diamond hc with rfl | ⟨K, h1, h2⟩
  · exact ⟨b, .refl, .refl⟩
  · exact ⟨K, .single h1, .single h2⟩

/-! ### Cylinders -/

open Classical in
/-- The cylinders. -/
noncomputable def singles (M : Multiset (AIET T)) : Multiset (AIET T) := M.filter (fun A => A.top.length = 1)

theorem Ev.not_single {A : AIET T} {l : Multiset (AIET T)} (hA : A.Valid) (h : Ev A l) : A.top.length ≠ 1 := by
  intro e
  cases h with
  | rauzy h =>
    have key : ∀ {A B : AIET T}, A.bottom.length = 1 → RauzyTop A B → False := by
      intro A B e h
      obtain ⟨a, b, t, l₁, l₂, len, h⟩ := h
      simp at e
    rcases h with h | h
    · exact key (hA.perm.length_eq.trans e) h
    · exact key e h
  | split h => have := h.lt; have := h.pos; omega
  | merge _ h =>
    have := hA.perm.length_eq.trans e
    obtain ⟨t, b, top, l₁, l₂, len, h⟩ := h
    simp at this

theorem single_periodic {A : AIET T} (hA : A.Valid) (h : A.top.length = 1) : ∃ x, Periodic A.Maps x := by
  obtain ⟨a, ha⟩ := List.length_eq_one_iff.mp h
  have hb : A.bottom = [a] := by
    have := hA.perm
    rw [ha] at this
    exact List.perm_singleton.mp this
  refine ⟨0, .single ⟨a, by rw [ha]; simp, ?_, ?_, ?_⟩⟩
  · rw [ha]; simp [off]
  · have := hA.pos a (by rw [ha]; simp)
    rw [ha]; simpa [off] using this
  · rw [ha, hb]; simp [off]

theorem AIET.norm_maps {A : AIET T} (hA : A.Valid) : A.norm.Maps = A.Maps := (A.agree_norm.maps hA).symm

/-- No part has periodic points if there were none before. -/
theorem Ev.no_periodic {A : AIET T} {l : Multiset (AIET T)} (hA : A.Valid) (h : Ev A l) (hp : ¬ ∃ x, Periodic A.Maps x) :
    ∀ B ∈ l, B.Valid ∧ ¬ ∃ x, Periodic B.Maps x := by
  have key : ∀ {B : AIET T}, Descend A B → B.norm.Valid ∧ ¬ ∃ x, Periodic B.norm.Maps x := by
    intro B hB
    obtain ⟨h1, h2⟩ := hB.no_periodic (ι := AddMonoidHom.id T) (fun _ _ h => h) hA
    exact ⟨h1.norm, by rw [AIET.norm_maps h1]; exact fun h => hp (h2 h)⟩
  cases h with
  | rauzy h => intro B hB; rw [Multiset.mem_singleton] at hB; subst hB; exact key (.steps .refl (.single h))
  | merge _ h => intro B hB; rw [Multiset.mem_singleton] at hB; subst hB; exact key (.merge .refl h)
  | split h =>
    intro B hB
    rw [Multiset.insert_eq_cons, Multiset.mem_cons, Multiset.mem_singleton] at hB
    rcases hB with rfl | rfl
    · exact key (.cut .refl h)
    · have hr := h.valid_right hA
      exact ⟨hr.norm, by rw [AIET.norm_maps hr]; exact fun h' => hp ((h.periodic_iff hA).mpr (.inr h'))⟩

/-- Every transformation is a cylinder or has no periodic points. -/
def Settled (M : Multiset (AIET T)) : Prop := ∀ A ∈ M, A.top.length = 1 ∨ ¬ ∃ x, Periodic A.Maps x

theorem Rw.singles_le {M M' : Multiset (AIET T)} (h : Rw M M') : singles M ≤ singles M' := by
  obtain ⟨A, N, l, rfl, hA, hl, rfl⟩ := h
  unfold singles
  rw [Multiset.filter_cons_of_neg (p := fun A : AIET T => A.top.length = 1) _ (hl.not_single hA), Multiset.filter_add]
  exact Multiset.le_add_left _ _

theorem Rws.singles_le {M M' : Multiset (AIET T)} (h : Rws M M') : singles M ≤ singles M' := by
  induction h with
  | refl => exact le_refl _
  | tail _ h ih => exact ih.trans h.singles_le

theorem Rw.settled {M M' : Multiset (AIET T)} (h : Rw M M') (hM : Settled M) : Settled M' ∧ singles M' = singles M := by
  obtain ⟨A, N, l, rfl, hA, hl, rfl⟩ := h
  have hp : ¬ ∃ x, Periodic A.Maps x := (hM A (Multiset.mem_cons_self _ _)).resolve_left (hl.not_single hA)
  have hl' := hl.no_periodic hA hp
  constructor
  · intro B hB
    rcases Multiset.mem_add.mp hB with hB | hB
    · exact .inr (hl' B hB).2
    · exact hM B (Multiset.mem_cons_of_mem hB)
  · unfold singles
    rw [Multiset.filter_cons_of_neg (p := fun A : AIET T => A.top.length = 1) _ (hl.not_single hA), Multiset.filter_add, Multiset.filter_eq_nil.mpr, zero_add]
    exact fun B hB e => (hl' B hB).2 (single_periodic (hl' B hB).1 e)

theorem Rws.settled {M M' : Multiset (AIET T)} (h : Rws M M') (hM : Settled M) : Settled M' ∧ singles M' = singles M := by
  induction h with
  | refl => exact ⟨hM, rfl⟩
  | tail _ h ih =>
    obtain ⟨h1, h2⟩ := h.settled ih.1
    exact ⟨h1, h2.trans ih.2⟩

/-- A settled state has all the cylinders. -/
theorem Rws.singles_le_of_settled {M M₁ M₂ : Multiset (AIET T)} (h₁ : Rws M M₁) (h₂ : Rws M M₂) (hM₂ : Settled M₂) : singles M₁ ≤ singles M₂ := by
  obtain ⟨K, k1, k2⟩ := h₁.join h₂
  rw [← (k2.settled hM₂).2]
  exact k1.singles_le

theorem Steps.rws {A B : AIET T} (hA : A.Valid) (h : Steps A B) : Rws {A.norm} {B.norm} := by
  induction h with
  | refl => exact .refl
  | tail hr h ih => exact ih.tail ((Ev.rauzy h).rw (Steps.valid hA hr))

/-! ### Decompositions -/

section

variable {P : Type} [CommRing P] [LinearOrder P] [IsStrictOrderedRing P] {H : LawfulLengths O c ε} {ι : T →+ P} {A₀ : AIET T} {R : List Conn}
  {au : Bool → Prop}

/-- The components of a decomposition. -/
def Decomp.parts (H : LawfulLengths O c ε) (D : Decomp σ T) : Multiset (AIET T) :=
  ((D.comps.map (fun x => (H.abs x.iet D.lengths.inner).norm) : List (AIET T)) : Multiset (AIET T))

theorem abs_norm_congr {E : IET T} {s s' : σ} (h : ∀ a ∈ E.top, H.len s' a = H.len s a) : (H.abs E s').norm = (H.abs E s).norm :=
  AIET.Agree.norm ⟨rfl, rfl, h⟩

/-- A step with a limit consists of elementary steps. -/
theorem decompositionStepBounded_rws (hι : StrictMono ι) {L : PPL} (hL : L.Lawful) {D D' : Decomp σ T} (h : D.Inv H ι A₀ R au) {i : ℕ} {x : Comp T}
    (hi : D.comps[i]? = some x) {limit : ℤ} (hlimit : limit ≠ -1) {step : DStep}
    (hr : D.decompositionStepBounded L O limit i = .ok (step, D')) : Rws (D.parts H) (D'.parts H) := by
  obtain ⟨step', D'', r1, -, heff, hframe, -⟩ := decompositionStepBounded_spec hι hL h hi hlimit
  rw [hr] at r1
  cases r1
  have hx := List.mem_of_getElem? hi
  have hk : ¬ (x.cylinder = some true ∧ x.keane = some true) := fun h' => (h.flags x hx).keane h'.2
  set s : LWC σ := { D.lengths with others := D.others i } with hs
  have hg : (LWC.lawful H).Good x.iet s := LWC.good_congr (h.good x hx) rfl rfl rfl
  set E : IET T := { x.iet with safCache := some (safList c ((LWC.lawful H).unswapped x.iet s)) } with hE
  have hgE : (LWC.lawful H).Good E s := hg.setCache
  set cost : Option ℤ := if ∀ v ∈ safList c (H.abs x.iet s.inner), v = 0 then none else some 64 with hcost
  have hcost' : ∀ v, cost = some v → 0 < v := by
    intro v hv
    rw [hcost] at hv
    split at hv
    · cases hv
    · cases hv; norm_num
  obtain ⟨ist, E', s', h1, h2, h3, h4, h5, h6⟩ := chunks_spec H hL cost hcost' (limit.toNat + 1) limit E s hlimit (Nat.lt_succ_self _) hgE
  have hset : (D.comps.set i ({ x with iet := E' } : Comp T))[i]? = some { x with iet := E' } := by
    rw [List.getElem?_set_self (List.getElem?_eq_some_iff.mp hi).1]
  have hrun : D.decompositionStepBounded L O limit i =
      Decomp.conclude { comps := D.comps.set i { x with iet := E' }, lengths := s' } i ist := by
    unfold Decomp.decompositionStepBounded
    simp only [Decomp.comp_ok hi, assertM, bind, Except.bind]
    rw [if_pos (decide_eq_true hk)]
    simp only
    rw [boshernitzanCost_spec H hg]
    simp only
    rw [h1]
    rfl
  rw [hrun] at hr
  obtain ⟨c1, c2, ⟨y', c3, c4⟩, c5⟩ := Decomp.conclude_frame hr hset
  simp only at c1 c4
  have hdis : ∀ z ∈ D.comps.eraseIdx i, ∀ a ∈ z.iet.top, a ∉ x.iet.top := by
    have := (List.Perm.pairwise_iff (fun h a ha ha' => h a ha' ha) (perm_cons_eraseIdx hi)).mp h.disjoint
    rw [List.pairwise_cons] at this
    exact fun z hz a ha ha' => this.1 z hz a ha' ha
  have hN : (D.comps.eraseIdx i).map (fun z => (H.abs z.iet D'.lengths.inner).norm) =
      (D.comps.eraseIdx i).map (fun z => (H.abs z.iet D.lengths.inner).norm) :=
    List.map_congr_left (fun z hz => abs_norm_congr (fun a ha => hframe a (hdis z hz a ha)))
  set N : Multiset (AIET T) := (((D.comps.eraseIdx i).map (fun z => (H.abs z.iet D.lengths.inner).norm) : List (AIET T)) : Multiset (AIET T)) with hNdef
  have hM : D.parts H = {(H.abs x.iet D.lengths.inner).norm} + N := by
    rw [Multiset.singleton_add, hNdef, Multiset.cons_coe]
    exact Multiset.coe_eq_coe.mpr ((perm_cons_eraseIdx hi).map _)
  have hM' : ∀ y : Comp T, y.iet = E' → (((D.comps.set i y).map (fun z => (H.abs z.iet D'.lengths.inner).norm) : List (AIET T)) : Multiset (AIET T)) =
      {(H.abs E' s'.inner).norm} + N := by
    intro y hy
    rw [Multiset.singleton_add, hNdef, Multiset.cons_coe, ← hN, ← c1, ← hy]
    exact Multiset.coe_eq_coe.mpr ((set_perm_cons y hi).map (fun z : Comp T => (H.abs z.iet D'.lengths.inner).norm))
  have hv : (H.abs x.iet D.lengths.inner).Valid := hg.ok.valid
  have main : ∀ l : Multiset (AIET T), Rws {(H.abs x.iet D.lengths.inner).norm} l → D'.parts H = l + N → Rws (D.parts H) (D'.parts H) := by
    intro l hl e
    rw [hM, e]
    exact hl.add N
  have hcomp : ∀ y : Comp T, D'.comps = D.comps.set i y → D'.parts H = {(H.abs E' s'.inner).norm} + N := by
    intro y e
    unfold Decomp.parts
    rw [e]
    refine hM' y ?_
    have := c3
    rw [e, List.getElem?_set_self (List.getElem?_eq_some_iff.mp hi).1] at this
    cases this
    exact c4
  have hsame : (∃ y : Comp T, D'.comps = D.comps.set i y) → Steps (H.abs x.iet D.lengths.inner) (H.abs E' s'.inner) → Rws (D.parts H) (D'.parts H) :=
    fun ⟨y, e⟩ hst => main _ (hst.rws hv) (hcomp y e)
  have hstep : step.result ≠ .separatingConnection → ∃ y : Comp T, D'.comps = D.comps.set i y := by
    intro hne
    generalize hcs : D'.comps = cs at heff
    cases heff with
    | same => exact ⟨_, rfl⟩
    | split e => exact absurd e hne
    | merge => exact ⟨_, rfl⟩
  cases h2 with
  | cylinder hm _ => exact hsame (hstep (by rw [c2]; simp [Result.toD])) hm.steps
  | auto hm _ _ _ => exact hsame (hstep (by rw [c2]; simp [Result.toD])) hm.steps
  | @finish E₁ _ _ _ hm hf =>
    have hv₁ : (H.abs E₁ s'.inner).Valid := (hm.ok hgE.ok).valid
    have hst : Steps (H.abs x.iet D.lengths.inner) (H.abs E₁ s'.inner) := hm.steps
    cases hf with
    | limit ht hb _ _ _ =>
      refine hsame (hstep (by rw [c2]; simp [Result.toD])) ?_
      have : H.abs E' s'.inner = H.abs E₁ s'.inner := by simp [LawfulLengths.abs, ht, hb]
      rw [this]; exact hst
    | boshernitzan ht hb _ _ _ _ =>
      refine hsame (hstep (by rw [c2]; simp [Result.toD])) ?_
      have : H.abs E' s'.inner = H.abs E₁ s'.inner := by simp [LawfulLengths.abs, ht, hb]
      rw [this]; exact hst
    | nonSeparating hirr _ _ _ _ hmerge =>
      obtain ⟨y, e⟩ := hstep (by rw [c2]; simp [Result.toD])
      exact main _ ((hst.rws hv).tail ((Ev.merge hirr hmerge).rw hv₁)) (hcomp y e)
    | @separating _ F k b t hcut _ _ _ _ =>
      have hcut' : IsCut (H.abs E₁ s'.inner) (H.abs E' s'.inner) (H.abs F s'.inner) k := hcut
      obtain ⟨F', f1, f2⟩ := c5 (by rw [c2]; rfl)
      cases f1
      refine main _ ((hst.rws hv).tail ((Ev.split hcut').rw hv₁)) ?_
      generalize hcs : D'.comps = cs at heff
      cases heff with
      | same _ _ _ e => exact absurd (by rw [c2]; rfl) e
      | merge e => rw [c2] at e; cases e
      | @split x' y _ =>
        have hlt := (List.getElem?_eq_some_iff.mp hi).1
        have hx' : x'.iet = E' := by
          have := c3
          rw [hcs, List.getElem?_append_left (by simpa using hlt), List.getElem?_set_self hlt] at this
          cases this
          exact c4
        have hy : y = { iet := F } := by
          rw [hcs] at f2
          simpa using f2
        unfold Decomp.parts
        rw [hcs, List.map_append, ← Multiset.coe_add, hM' x' hx', hy]
        simp only [List.map_cons, List.map_nil, Multiset.coe_singleton, c1, Multiset.insert_eq_cons, ← Multiset.singleton_add]
        rw [add_assoc, add_assoc, add_comm N]

/-- The same for the loop without a limit. -/
theorem unlimited_rws (hι : StrictMono ι) {L : PPL} (hL : L.Lawful) {cost : Option ℤ} (hcost : ∀ v, cost = some v → 0 ≤ v) {i : ℕ} :
    ∀ (n : ℕ) (limit : ℤ) (D : Decomp σ T) (x : Comp T) (au : Bool → Prop) (step : DStep) (D' : Decomp σ T), 0 ≤ limit → D.Inv H ι A₀ R au →
      D.comps[i]? = some x → Decomp.unlimited L O cost i n limit D = .ok (step, D') → Rws (D.parts H) (D'.parts H) := by
  intro n
  induction n with
  | zero => intro limit D x au step D' _ _ _ hr; cases hr
  | succ n ih =>
    intro limit D x au step D' hlim h hi hr
    obtain ⟨st, D₁, h1, h2, h3, -, -⟩ := decompositionStepBounded_spec hι hL h hi (limit := limit) (by omega)
    have hrw := decompositionStepBounded_rws hι hL h hi (limit := limit) (by omega) h1
    simp only [Decomp.unlimited, h1, bind, Except.bind] at hr
    by_cases hres : st.result = .limitReached
    · rw [if_neg (by simpa using hres)] at hr
      obtain ⟨x', e1, e2, e3, e4, e5⟩ := h3.limit hres
      rw [e5, Option.toList_none, List.append_nil] at h2
      have hi' : D₁.comps[i]? = some x' := by
        rw [e1, List.getElem?_set_self (List.getElem?_eq_some_iff.mp hi).1]
      cases cost with
      | some v => exact hrw.trans (ih v D₁ x' _ step D' (hcost v rfl) h2 hi' hr)
      | none =>
        by_cases hm : 2 * (limit + 1) ≤ Decomp.intMax
        · simp only [if_pos hm] at hr
          exact hrw.trans (ih _ D₁ x' _ step D' (by omega) h2 hi' hr)
        · simp only [if_neg hm] at hr
          cases hr
    · rw [if_pos hres] at hr
      cases hr
      exact hrw

/-- A step consists of elementary steps. -/
theorem decompositionStep_rws (hι : StrictMono ι) {L : PPL} (hL : L.Lawful) {D D' : Decomp σ T} (h : D.Inv H ι A₀ R au) {i : ℕ} {x : Comp T}
    (hi : D.comps[i]? = some x) {fuel : ℕ} {limit : ℤ} {step : DStep}
    (hr : D.decompositionStep L O fuel limit i = .ok (step, D')) : Rws (D.parts H) (D'.parts H) := by
  by_cases hl : limit = -1
  · subst hl
    have hx := List.mem_of_getElem? hi
    have hk : ¬ (x.cylinder = some true ∧ x.keane = some true) := fun h' => (h.flags x hx).keane h'.2
    have hi' : (D.setComp i { x with iet := { x.iet with safCache := some (safList c ((LWC.lawful H).unswapped x.iet D.lengths)) } }).comps[i]? =
        some { x with iet := { x.iet with safCache := some (safList c ((LWC.lawful H).unswapped x.iet D.lengths)) } } := by
      simp only [Decomp.setComp]
      rw [List.getElem?_set_self (List.getElem?_eq_some_iff.mp hi).1]
    have hrun : D.decompositionStep L O fuel (-1) i =
        Decomp.unlimited L O (if ∀ v ∈ safList c (H.abs x.iet D.lengths.inner), v = 0 then none else some 64) i fuel 0
          (D.setComp i { x with iet := { x.iet with safCache := some (safList c ((LWC.lawful H).unswapped x.iet D.lengths)) } }) := by
      unfold Decomp.decompositionStep
      rw [if_pos rfl]
      simp only [Decomp.comp_ok hi, assertM, bind, Except.bind]
      rw [if_pos (decide_eq_true hk)]
      simp only
      rw [boshernitzanCost_spec H (h.good x hx)]
    rw [hrun] at hr
    have hp : (D.setComp i { x with iet := { x.iet with safCache := some (safList c ((LWC.lawful H).unswapped x.iet D.lengths)) } }).parts H = D.parts H := by
      unfold Decomp.parts
      simp only [Decomp.setComp, List.map_set]
      congr 1
      refine List.ext_getElem? (fun j => ?_)
      by_cases hj : j = i
      · subst hj
        rw [List.getElem?_set_self (by simpa using (List.getElem?_eq_some_iff.mp hi).1), List.getElem?_map, hi]
        rfl
      · rw [List.getElem?_set_ne (Ne.symm hj)]
    rw [← hp]
    refine unlimited_rws hι hL (fun v hv => ?_) fuel 0 _ _ _ _ _ le_rfl (h.setCache hi) hi' hr
    split at hv
    · cases hv
    · cases hv; norm_num
  · unfold Decomp.decompositionStep at hr
    rw [if_neg hl] at hr
    exact decompositionStepBounded_rws hι hL h hi hl hr

end

/-- All decompositions are obtained from the original transformation by elementary steps. -/
theorem DReach.rws {L : PPL} (hL : L.Lawful) (H : LawfulLengths O c ε) {E : IET T} {s : σ} (hE : H.Ok E s) {D : Decomp σ T} {steps : List DStep}
    (h : DReach L O E s D steps) : Rws {(H.abs E s).norm} (D.parts H) := by
  induction h with
  | init h =>
    obtain ⟨D', h1, h2, h3, -⟩ := Decomp.make_spec H (ι := AddMonoidHom.id T) (fun _ _ h => h) hE
    rw [h] at h1
    cases h1
    unfold Decomp.parts
    rw [h2, h3]
    exact .refl
  | @step D D' steps step fuel limit i h1 h2 ih =>
    obtain ⟨x, hi, -⟩ := h1.effect hL H hE h2
    exact ih.trans (decompositionStep_rws (ι := AddMonoidHom.id T) (fun _ _ h => h) hL (h1.inv hL H (fun _ _ h => h) hE) hi h2)

end Verif
