import Mathlib.Algebra.Group.Subgroup.Lattice
import Verif.Proofs.Confluence

/-!
# The group generated by the lengths

Elementary steps of the induction, splitting, and removing connections do not change the additive group that is generated by the lengths.
-/

namespace Verif

set_option linter.unusedSectionVars false

variable {σ T ε : Type} [CommRing T] [LinearOrder T] [IsStrictOrderedRing T] {O : LengthsOps σ T} {d : ℕ} {c : T →+ (Fin d → ℚ)}

/-- The group generated by the lengths of the intervals of a transformation. -/
def AIET.group (A : AIET T) : AddSubgroup T := AddSubgroup.closure {v | ∃ a ∈ A.top, v = A.len a}

theorem AIET.mem_group {A : AIET T} {a : Label} (h : a ∈ A.top) : A.len a ∈ A.group := AddSubgroup.subset_closure ⟨a, h, rfl⟩

theorem AIET.group_le {A : AIET T} {G : AddSubgroup T} (h : ∀ a ∈ A.top, A.len a ∈ G) : A.group ≤ G :=
  (AddSubgroup.closure_le _).mpr (by rintro _ ⟨a, ha, rfl⟩; exact h a ha)

theorem AIET.Agree.group {A B : AIET T} (h : A.Agree B) : B.group = A.group := by
  obtain ⟨h1, -, h3⟩ := h
  unfold AIET.group
  congr 1
  ext v
  constructor
  · rintro ⟨a, ha, rfl⟩; rw [← h1] at ha; exact ⟨a, ha, (h3 a ha).symm⟩
  · rintro ⟨a, ha, rfl⟩; exact ⟨a, h1 ▸ ha, h3 a ha⟩

theorem AIET.group_norm (A : AIET T) : A.norm.group = A.group := A.agree_norm.group

theorem AIET.group_inv {A : AIET T} (hA : A.Valid) : A.inv.group = A.group := by
  unfold AIET.group
  congr 1
  ext v
  constructor
  · rintro ⟨a, ha, rfl⟩; exact ⟨a, hA.perm.mem_iff.mp ha, rfl⟩
  · rintro ⟨a, ha, rfl⟩; exact ⟨a, hA.perm.mem_iff.mpr ha, rfl⟩

theorem RauzyTop.group {A B : AIET T} (hA : A.Valid) (h : RauzyTop A B) : B.group = A.group := by
  obtain ⟨a, b, t, l₁, l₂, len, hlt⟩ := h
  have hb : b ∈ a :: t := hA.perm.mem_iff.mp (by simp)
  have hab : b ≠ a := by rintro rfl; exact lt_irrefl _ hlt
  have ha : a ∈ a :: t := by simp
  apply le_antisymm
  · refine AIET.group_le (fun x hx => ?_)
    show shorten len a (len b) x ∈ _
    unfold shorten
    split
    · exact AddSubgroup.sub_mem _ (AIET.mem_group (A := ⟨a :: t, b :: (l₁ ++ a :: l₂), len⟩) ha) (AIET.mem_group (A := ⟨a :: t, b :: (l₁ ++ a :: l₂), len⟩) hb)
    · exact AIET.mem_group (A := ⟨a :: t, b :: (l₁ ++ a :: l₂), len⟩) hx
  · refine AIET.group_le (fun x hx => ?_)
    have key : ∀ y ∈ a :: t, y ≠ a → len y ∈ (AIET.mk (a :: t) (l₁ ++ b :: a :: l₂) (shorten len a (len b))).group := by
      intro y hy hne
      have := AIET.mem_group (A := ⟨a :: t, l₁ ++ b :: a :: l₂, shorten len a (len b)⟩) hy
      simpa [shorten, hne] using this
    by_cases e : x = a
    · subst e
      have h1 := AIET.mem_group (A := ⟨x :: t, l₁ ++ b :: x :: l₂, shorten len x (len b)⟩) ha
      simp only [shorten, if_true] at h1
      have := AddSubgroup.add_mem _ h1 (key b hb hab)
      simpa using this
    · exact key x hx e

theorem RauzyStep.group {A B : AIET T} (hA : A.Valid) (h : RauzyStep A B) : B.group = A.group := by
  rcases h with h' | h'
  · exact h'.group hA
  · have hB : B.Valid := Steps.valid hA (.single (.inr h'))
    rw [← AIET.group_inv hA, ← AIET.group_inv hB]
    exact h'.group hA.inv

theorem Steps.group {A B : AIET T} (hA : A.Valid) (h : Steps A B) : B.group = A.group := by
  induction h with
  | refl => rfl
  | tail h1 h2 ih => rw [h2.group (Steps.valid hA h1), ih]

theorem MergeTop.group {A B : AIET T} (hA : A.Valid) (h : MergeTop A B) : B.group = A.group := by
  obtain ⟨t, b, top, l₁, l₂, len, hlen⟩ := h
  have hn : (b :: (l₁ ++ t :: l₂)).Nodup := hA.perm.nodup_iff.mpr hA.nodup
  have hbt : b ≠ t := by
    rintro rfl
    rw [List.nodup_cons] at hn
    exact hn.1 (by simp)
  have hb : b ∈ top := by
    have : b ∈ t :: top := hA.perm.mem_iff.mp (by simp)
    simpa [hbt] using this
  apply le_antisymm
  · exact AIET.group_le (fun x hx => AIET.mem_group (A := ⟨t :: top, b :: (l₁ ++ t :: l₂), len⟩) (List.mem_cons_of_mem _ hx))
  · refine AIET.group_le (fun x hx => ?_)
    rcases List.mem_cons.mp hx with rfl | hx
    · show len x ∈ _
      rw [← hlen]
      exact AIET.mem_group (A := ⟨top, l₁ ++ b :: l₂, len⟩) hb
    · exact AIET.mem_group (A := ⟨top, l₁ ++ b :: l₂, len⟩) hx

theorem IsCut.group {A l r : AIET T} {k : ℕ} (h : IsCut A l r k) : l.group ⊔ r.group = A.group := by
  obtain ⟨-, -, rfl, rfl, -, -⟩ := h
  unfold AIET.group
  rw [← AddSubgroup.closure_union]
  congr 1
  ext v
  constructor
  · rintro (⟨a, ha, rfl⟩ | ⟨a, ha, rfl⟩)
    · exact ⟨a, List.mem_of_mem_take ha, rfl⟩
    · exact ⟨a, List.mem_of_mem_drop ha, rfl⟩
  · rintro ⟨a, ha, rfl⟩
    rw [← List.take_append_drop k A.top] at ha
    rcases List.mem_append.mp ha with ha | ha
    · exact .inl ⟨a, ha, rfl⟩
    · exact .inr ⟨a, ha, rfl⟩

/-- The group generated by the lengths of several transformations. -/
def groups (M : Multiset (AIET T)) : AddSubgroup T := AddSubgroup.closure {v | ∃ A ∈ M, ∃ a ∈ A.top, v = A.len a}

theorem groups_cons (A : AIET T) (M : Multiset (AIET T)) : groups (A ::ₘ M) = A.group ⊔ groups M := by
  unfold groups AIET.group
  rw [← AddSubgroup.closure_union]
  congr 1
  ext v
  simp only [Multiset.mem_cons, Set.mem_ofPred_eq, Set.mem_union]
  constructor
  · rintro ⟨B, rfl | hB, h⟩
    · exact .inl h
    · exact .inr ⟨B, hB, h⟩
  · rintro (h | ⟨B, hB, h⟩)
    · exact ⟨A, .inl rfl, h⟩
    · exact ⟨B, .inr hB, h⟩

theorem groups_zero : groups (0 : Multiset (AIET T)) = ⊥ := by
  unfold groups
  simp

theorem Ev.groups {A : AIET T} {l : Multiset (AIET T)} (hA : A.Valid) (h : Ev A l) (N : Multiset (AIET T)) : groups (l + N) = groups (A ::ₘ N) := by
  cases h with
  | rauzy h => rw [Multiset.singleton_add, groups_cons, groups_cons, AIET.group_norm, h.group hA]
  | split h =>
    rw [show ∀ x y : AIET T, ({x, y} : Multiset (AIET T)) + N = x ::ₘ y ::ₘ N from fun x y => by
      rw [Multiset.insert_eq_cons, Multiset.cons_add, Multiset.singleton_add]]
    rw [groups_cons, groups_cons, groups_cons, AIET.group_norm, AIET.group_norm, ← sup_assoc, h.group]
  | merge _ h => rw [Multiset.singleton_add, groups_cons, groups_cons, AIET.group_norm, h.group hA]

theorem Rws.groups {M M' : Multiset (AIET T)} (h : Rws M M') : groups M' = groups M := by
  induction h with
  | refl => rfl
  | tail _ h ih =>
    obtain ⟨A, N, l, rfl, h1, h2, rfl⟩ := h
    rw [← ih, h2.groups h1]

theorem Effect.groups {b : Bool} {A B : AIET T} {new : List (AIET T)} (hA : A.Valid) (h : Effect b A new B) (N : Multiset (AIET T)) :
    Verif.groups (B ::ₘ ((new : Multiset (AIET T)) + N)) = Verif.groups (A ::ₘ N) := by
  cases h with
  | steps h => rw [groups_cons, groups_cons, h.group hA]; simp
  | swap => rw [groups_cons, groups_cons, AIET.group_inv hA]; simp
  | @cut _ B l r k h h' =>
    rw [show (([r] : List (AIET T)) : Multiset (AIET T)) + N = r ::ₘ N from by simp]
    rw [groups_cons, groups_cons, groups_cons, ← sup_assoc, h'.group, h.group hA]
  | merge h h' => rw [groups_cons, groups_cons, h'.group (Steps.valid hA h), h.group hA]; simp

end Verif
