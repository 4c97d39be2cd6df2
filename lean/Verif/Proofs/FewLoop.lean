import Verif.Proofs.Bosh
import Verif.Proofs.Commensurable
import Verif.Proofs.Saf
import Verif.Proofs.Tracker
import Mathlib.Algebra.Group.Subgroup.ZPowers.Basic

/-!
# Loops of transformations with at most three intervals

Induction on the left end does not change which labels come last on the top and on the bottom.  With at most three intervals, this leaves little room for the labels to
be exchanged between two similar states.
-/

namespace Verif

set_option linter.unusedSectionVars false
set_option linter.unusedSimpArgs false

variable {T P : Type} [CommRing T] [LinearOrder T] [IsStrictOrderedRing T] [Field P] [LinearOrder P] [IsStrictOrderedRing P]

theorem RauzyTop.last {A B : AIET T} (h : RauzyTop A B) : B.top.getLast? = A.top.getLast? ∧ B.bottom.getLast? = A.bottom.getLast? := by
  cases h with
  | mk a b t l₁ l₂ len hlt =>
    refine ⟨rfl, ?_⟩
    have e1 : l₁ ++ b :: a :: l₂ = (l₁ ++ [b]) ++ (a :: l₂) := by simp
    have e2 : b :: (l₁ ++ a :: l₂) = (b :: l₁) ++ (a :: l₂) := by simp
    show (l₁ ++ b :: a :: l₂).getLast? = (b :: (l₁ ++ a :: l₂)).getLast?
    rw [e1, e2, List.getLast?_append_of_ne_nil _ (by simp), List.getLast?_append_of_ne_nil _ (by simp)]

/-- Steps of induction do not change the last labels. -/
theorem Steps.last {A B : AIET T} (h : Steps A B) : B.top.getLast? = A.top.getLast? ∧ B.bottom.getLast? = A.bottom.getLast? := by
  induction h with
  | refl => exact ⟨rfl, rfl⟩
  | tail _ h ih =>
    rcases h with h | h
    · exact ⟨h.last.1.trans ih.1, h.last.2.trans ih.2⟩
    · exact ⟨h.last.2.trans ih.1, h.last.1.trans ih.2⟩

theorem RauzyTop.head_ne {A B : AIET T} (hA : A.Valid) (h : RauzyTop A B) : A.top.head? ≠ A.bottom.head? := by
  cases h with
  | mk a b t l₁ l₂ len hlt =>
    have := hA.split.b_a
    simpa using Ne.symm this

/-- There is no step when the first labels are the same. -/
theorem RauzyStep.head_ne {A B : AIET T} (hA : A.Valid) (h : RauzyStep A B) : A.top.head? ≠ A.bottom.head? := by
  rcases h with h | h
  · exact RauzyTop.head_ne hA h
  · exact (RauzyTop.head_ne hA.inv h).symm

theorem RauzyTop.transl_back {A B : AIET T} (hA : A.Valid) (h : RauzyTop A B) (S : AddSubgroup T) (hS : ∀ a ∈ B.top, B.transl a ∈ S) :
    ∀ a ∈ A.top, A.transl a ∈ S := by
  cases h with
  | mk a b t l₁ l₂ len hlt =>
    have hs := hA.split
    have ha := hS a (by simp)
    rw [RauzyTop.transl hs a (by simp), if_neg hs.b_a.symm, add_zero] at ha
    intro x hx
    have h1 := hS x hx
    rw [RauzyTop.transl hs x hx] at h1
    split at h1
    · simpa using S.sub_mem h1 ha
    · simpa using h1

theorem transl_inv (A : AIET T) (a : Label) : A.inv.transl a = - A.transl a := by simp [AIET.transl, AIET.inv]

/-- The translations before a step are combinations of the translations after the step. -/
theorem RauzyStep.transl_back {A B : AIET T} (hA : A.Valid) (h : RauzyStep A B) (S : AddSubgroup T) (hS : ∀ a ∈ B.top, B.transl a ∈ S) :
    ∀ a ∈ A.top, A.transl a ∈ S := by
  have hB := h.valid hA
  rcases h with h | h
  · exact h.transl_back hA S hS
  · intro a ha
    have := h.transl_back hA.inv S (fun b hb => by
      rw [transl_inv]
      exact S.neg_mem (hS b (hB.perm.mem_iff.mp hb))) a (hA.perm.mem_iff.mpr ha)
    rw [transl_inv] at this
    simpa using S.neg_mem this

theorem Steps.transl_back {A B : AIET T} (hA : A.Valid) (h : Steps A B) (S : AddSubgroup T) (hS : ∀ a ∈ B.top, B.transl a ∈ S) :
    ∀ a ∈ A.top, A.transl a ∈ S := by
  induction h with
  | refl => exact hS
  | tail h1 h2 ih => exact ih (RauzyStep.transl_back (Steps.valid hA h1) h2 S hS)

/-- For lengths which are rational multiples of each other, no IET is similar to one that it induces. -/
theorem not_similar_of_scaled {u : T} (hu : 0 < u) {D : ℤ} (hD : 0 < D) {A A' : AIET T} (hA : A.Valid) (h : Relation.TransGen RauzyStep A A')
    (hk : ∀ a ∈ A'.top, ∃ k : ℤ, (D : T) * A'.len a = k * u)
    (hs : ∀ a ∈ A.top, ∀ b ∈ A.top, A.len a * A'.len b = A.len b * A'.len a) : False := by
  have hD' : (0 : T) < D := by exact_mod_cast hD
  have hι : StrictMono (AddMonoidHom.mulLeft (D : T)) := fun x y hxy => mul_lt_mul_of_pos_left hxy hD'
  have hv' := Steps.valid hA h.to_reflTransGen
  choose! k hk using hk
  refine not_similar_of_mult (k' := fun a => (k a).toNat) hu (hA.map hι) (Steps.map_pos hι h) ?_ ?_
  · intro a ha
    have h1 := hk a ha
    have h2 := mul_pos hD' (hv'.pos a ha)
    rw [h1] at h2
    have h3 : (0 : T) < (k a : T) := pos_of_mul_pos_left h2 hu.le
    have h4 : 0 < k a := by exact_mod_cast h3
    have h5 : (((k a).toNat : ℕ) : T) = (k a : T) := by
      have : (((k a).toNat : ℤ) : T) = (k a : T) := by rw [Int.toNat_of_nonneg h4.le]
      exact_mod_cast this
    show (D : T) * A'.len a = _
    rw [h5]
    exact h1
  · intro a ha b hb
    show (D : T) * A.len a * (D * A'.len b) = (D : T) * A.len b * (D * A'.len a)
    linear_combination (D : T) * D * hs a ha b hb

/-- A sum of the two translations of a rotation. -/
theorem sum_rotation {t : Label → T} {α β : T} : ∀ l : List Label, (∀ a ∈ l, t a = α ∨ t a = -β) →
    ∃ i j : ℕ, i + j = l.length ∧ (l.map t).sum = i * α - j * β
  | [], _ => ⟨0, 0, rfl, by simp⟩
  | a :: l, h => by
    obtain ⟨i, j, h1, h2⟩ := sum_rotation l (fun b hb => h b (List.mem_cons_of_mem _ hb))
    rw [List.map_cons, List.sum_cons, h2]
    rcases h a List.mem_cons_self with h | h
    · exact ⟨i + 1, j, by simp; omega, by rw [h]; push_cast; ring⟩
    · exact ⟨i, j + 1, by simp; omega, by rw [h]; push_cast; ring⟩

/-- The two rotations of three intervals that are similar to each other only if their labels are exchanged. -/
theorem rotation_false {x y z : Label} (hxy : x ≠ y) (hxz : x ≠ z) (hyz : y ≠ z) {e m : Label → T} {A : AIET T}
    (hA : A.Valid) (hAt : A = ⟨[x, y, z], [y, z, x], e⟩) {B : AIET T} (hst : Relation.TransGen RauzyStep A B)
    (hBt : B.top = [y, x, z]) (hBb : B.bottom = [z, y, x]) (hBl : ∀ a ∈ B.top, B.len a = m a)
    (hs : ∀ a ∈ A.top, ∀ b ∈ A.top, A.len a * m b = A.len b * m a)
    {L : List Label} (hL : L ≠ []) (hLt : ∀ a ∈ L, a ∈ B.top) (hsum : (L.map B.transl).sum = 0) : False := by
  have hB := Steps.valid hA hst.to_reflTransGen
  have lx : B.len x = m x := hBl x (by simp [hBt])
  have ly : B.len y = m y := hBl y (by simp [hBt])
  have lz : B.len z = m z := hBl z (by simp [hBt])
  have px : 0 < m x := by rw [← lx]; exact hB.pos x (by simp [hBt])
  have py : 0 < m y := by rw [← ly]; exact hB.pos y (by simp [hBt])
  have pz : 0 < m z := by rw [← lz]; exact hB.pos z (by simp [hBt])
  have tx : B.transl x = m z := by
    simp [AIET.transl, hBt, hBb, off, hxy, hxz, hyz, hxy.symm, hxz.symm, hyz.symm, lx, ly, lz]
  have ty : B.transl y = m z := by
    simp [AIET.transl, hBt, hBb, off, hxy, hxz, hyz, hxy.symm, hxz.symm, hyz.symm, lx, ly, lz]
  have tz : B.transl z = -(m x + m y) := by
    simp [AIET.transl, hBt, hBb, off, hxy, hxz, hyz, hxy.symm, hxz.symm, hyz.symm, lx, ly, lz]
    ring
  obtain ⟨M, N, h1, h2⟩ := sum_rotation (t := B.transl) (α := m z) (β := m x + m y) L (by
    intro a ha
    have := hLt a ha
    rw [hBt] at this
    simp only [List.mem_cons, List.not_mem_nil, or_false] at this
    rcases this with rfl | rfl | rfl
    · exact .inl ty
    · exact .inl tx
    · exact .inr tz)
  rw [hsum] at h2
  have hrel : (N : T) * (m x + m y) = M * m z := by linear_combination h2
  have hN : N ≠ 0 := by
    rintro rfl
    have h3 : M ≠ 0 := by
      have := List.length_pos_iff.mpr hL
      omega
    have h4 : (M : T) * m z = 0 := by simpa using hrel.symm
    rcases mul_eq_zero.mp h4 with h4 | h4
    · exact h3 (by exact_mod_cast h4)
    · exact pz.ne' h4
  have hNp : (0 : T) < N := by exact_mod_cast Nat.pos_of_ne_zero hN
  set S : AddSubgroup T := (AddSubgroup.zmultiples (m z)).comap (AddMonoidHom.mulLeft (N : T)) with hS
  have hmem : ∀ t, t ∈ S ↔ ∃ k : ℤ, (N : T) * t = k * m z := by
    intro t
    rw [hS, AddSubgroup.mem_comap, AddSubgroup.mem_zmultiples_iff]
    simp only [AddMonoidHom.coe_mulLeft, zsmul_eq_mul]
    exact ⟨fun ⟨k, h⟩ => ⟨k, h.symm⟩, fun ⟨k, h⟩ => ⟨k, h.symm⟩⟩
  have hback := Steps.transl_back hA hst.to_reflTransGen S (by
    intro a ha
    rw [hBt] at ha
    simp only [List.mem_cons, List.not_mem_nil, or_false] at ha
    rw [hmem]
    rcases ha with rfl | rfl | rfl
    · exact ⟨N, by rw [ty]; push_cast; ring⟩
    · exact ⟨N, by rw [tx]; push_cast; ring⟩
    · exact ⟨-M, by rw [tz]; push_cast; linear_combination -hrel⟩)
  have ex := hA.pos x (by simp [hAt])
  have ey := hA.pos y (by simp [hAt])
  have ez := hA.pos z (by simp [hAt])
  have sx : A.transl x = e y + e z := by
    simp [AIET.transl, hAt, off, hxy, hxz, hyz, hxy.symm, hxz.symm, hyz.symm]
  have sy : A.transl y = - e x := by
    simp [AIET.transl, hAt, off, hxy, hxz, hyz, hxy.symm, hxz.symm, hyz.symm]
  obtain ⟨K', hK'⟩ := (hmem _).mp (hback x (by simp [hAt]))
  obtain ⟨K, hK⟩ := (hmem _).mp (hback y (by simp [hAt]))
  rw [sx] at hK'
  rw [sy] at hK
  have sxy := hs x (by simp [hAt]) y (by simp [hAt])
  have sxz := hs x (by simp [hAt]) z (by simp [hAt])
  have syz := hs y (by simp [hAt]) z (by simp [hAt])
  have eA : A.len = e := by rw [hAt]
  rw [eA] at ex ey ez sxy sxz syz
  have htot : (0 : T) < ((K' - K : ℤ) : T) := by
    have : ((K' - K : ℤ) : T) * m z = N * (e x + e y + e z) := by push_cast; linear_combination -hK' + hK
    have h5 : (0 : T) < ((K' - K : ℤ) : T) * m z := by rw [this]; positivity
    exact pos_of_mul_pos_left h5 pz.le
  have hKp : 0 < K' - K := by exact_mod_cast htot
  -- the ratio of the lengths is rational
  have hratio : ((K' - K : ℤ) : T) * m x = (M + N) * e x := by
    have : (((K' - K : ℤ) : T) * m x) * m z = ((M + N) * e x) * m z := by
      push_cast
      linear_combination (-m x) * hK' + m x * hK + e x * hrel - (N : T) * sxy - (N : T) * sxz
    exact mul_right_cancel₀ pz.ne' this
  refine not_similar_of_scaled (u := m z) pz (D := N * (K' - K)) (by positivity) hA hst ?_ ?_
  · intro a ha
    rw [hBl a ha]
    rw [hBt] at ha
    simp only [List.mem_cons, List.not_mem_nil, or_false] at ha
    push_cast at hratio ⊢
    rcases ha with rfl | rfl | rfl
    · refine ⟨(K' - K) * M + (M + N) * K, ?_⟩
      push_cast
      linear_combination ((K' : T) - K) * hrel - (N : T) * hratio + ((M : T) + N) * hK
    · refine ⟨-((M + N) * K), ?_⟩
      push_cast
      linear_combination (N : T) * hratio - ((M : T) + N) * hK
    · exact ⟨N * (K' - K), by push_cast; ring⟩
  · have hp := Steps.top_perm hst.to_reflTransGen
    intro a ha b hb
    rw [hBl a (hp.mem_iff.mpr ha), hBl b (hp.mem_iff.mpr hb)]
    exact hs a ha b hb

end Verif
