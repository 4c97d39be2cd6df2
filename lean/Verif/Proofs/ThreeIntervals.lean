import Verif.Proofs.Rotation
import Mathlib.Data.Set.Finite.Lattice
import Mathlib.Order.Interval.Finset.Nat
import Mathlib.Data.Int.Interval

/-!
# IETs whose translations are combinations of two numbers
-/

namespace Verif

set_option linter.unusedSectionVars false
set_option linter.unusedSimpArgs false

variable {T P : Type} [CommRing T] [LinearOrder T] [IsStrictOrderedRing T] [CommRing P] [LinearOrder P]
  [IsStrictOrderedRing P] {d : ℕ} {c : T →+ (Fin d → ℚ)}

/-- All points are periodic if the translations are multiples of a common unit. -/
theorem periodic_of_discrete {A : AIET P} (hA : A.Valid) {N K : ℕ} (hN : N ≠ 0) {u : P} (hu : 0 < u) (hK : (N : P) * A.total ≤ K * u)
    (ht : ∀ a ∈ A.top, ∃ j : ℤ, (N : P) * A.transl a = j * u) {x : P} (h0 : 0 ≤ x) (h1 : x < A.total) : Periodic A.Maps x := by
  classical
  have hf : ∀ y : P, ∃ z, 0 ≤ y ∧ y < A.total → A.Maps y z := by
    intro y
    by_cases hy : 0 ≤ y ∧ y < A.total
    · obtain ⟨z, hz⟩ := hA.maps_total hy.1 hy.2
      exact ⟨z, fun _ => hz⟩
    · exact ⟨y, fun h => absurd h hy⟩
  choose f hf using hf
  set g : ℕ → P := fun k => f^[k] x with hg
  have gs : ∀ k, g (k + 1) = f (g k) := fun k => by simp [hg, Function.iterate_succ_apply']
  have hr : ∀ k, 0 ≤ g k ∧ g k < A.total := by
    intro k
    induction k with
    | zero => exact ⟨h0, h1⟩
    | succ k ih => rw [gs]; exact hA.maps_range (hf _ ih)
  have hm : ∀ k, A.Maps (g k) (g (k + 1)) := fun k => by rw [gs]; exact hf _ (hr k)
  have hj : ∀ k, ∃ j : ℤ, (N : P) * (g k - x) = j * u := by
    intro k
    induction k with
    | zero => exact ⟨0, by simp [hg]⟩
    | succ k ih =>
      obtain ⟨j, e⟩ := ih
      obtain ⟨a, ha, -, -, e'⟩ := hm k
      obtain ⟨i, e''⟩ := ht a ha
      refine ⟨j + i, ?_⟩
      unfold AIET.transl at e''
      rw [e']
      push_cast
      linear_combination e + e''
  choose j hj using hj
  have hNp : (0 : P) < N := by exact_mod_cast Nat.pos_of_ne_zero hN
  have hb : ∀ k, j k ∈ Set.Icc (-(K : ℤ)) K := by
    intro k
    have e := hj k
    obtain ⟨r0, r1⟩ := hr k
    have b1 : (N : P) * (g k - x) ≤ N * A.total := mul_le_mul_of_nonneg_left (by linarith) hNp.le
    have b2 : (N : P) * (x - g k) ≤ N * A.total := mul_le_mul_of_nonneg_left (by linarith) hNp.le
    constructor
    · have : (-(j k : P)) * u ≤ K * u := by nlinarith
      have := le_of_mul_le_mul_right this hu
      have : (((-j k : ℤ)) : P) ≤ ((K : ℤ) : P) := by push_cast; exact this
      have := Int.cast_le.mp this
      omega
    · have : (j k : P) * u ≤ K * u := by linarith
      have := le_of_mul_le_mul_right this hu
      exact_mod_cast this
  obtain ⟨k, l, hkl, e⟩ := (Set.finite_Icc (-(K : ℤ)) K).exists_lt_map_eq_of_forall_mem hb
  have hgk : g k = g l := by
    have e1 := hj k
    rw [e, ← hj l] at e1
    have := mul_left_cancel₀ hNp.ne' e1
    linarith
  obtain ⟨m, rfl⟩ := Nat.exists_eq_add_of_lt hkl
  have back : ∀ k, g k = g (k + m + 1) → g 0 = g (0 + m + 1) := by
    intro k
    induction k with
    | zero => exact id
    | succ k ih =>
      intro h
      apply ih
      have h1 := hm k
      have h2 := hm (k + m + 1)
      rw [h, show k + 1 + m + 1 = k + m + 1 + 1 by omega] at h1
      exact hA.maps_inj h1 h2
  have hgm : ∀ m, Relation.TransGen A.Maps (g 0) (g (m + 1)) := by
    intro m
    induction m with
    | zero => exact .single (hm 0)
    | succ m ih => exact ih.tail (hm (m + 1))
  have h2 := hgm m
  have h3 := back k hgk
  rw [Nat.zero_add] at h3
  rw [← h3] at h2
  exact h2

/-- All translations are combinations of `α` and `-β`. -/
structure AIET.Combines (A : AIET T) (α β : T) (i j : Label → ℕ) : Prop where
  pos : 0 < α ∧ 0 < β
  some : ∀ a ∈ A.top, i a + j a ≠ 0
  transl : ∀ a ∈ A.top, A.transl a = i a * α - j a * β
  total : A.total ≤ α + β
  saf : ∀ f g : T →+ ℚ, A.saf f g = 2 * (f β * g α - g β * f α)

theorem sum_combines {i j n : Label → ℕ} {t : Label → T} {α β : T} : ∀ l : List Label, (∀ a ∈ l, t a = i a * α - j a * β) →
    (l.map (fun a => (n a : T) * t a)).sum = ((l.map (fun a => n a * i a)).sum : ℕ) * α - ((l.map (fun a => n a * j a)).sum : ℕ) * β
  | [], _ => by simp
  | a :: l, h => by
    simp only [List.map_cons, List.sum_cons]
    rw [sum_combines l (fun b hb => h b (List.mem_cons_of_mem _ hb)), h a List.mem_cons_self]
    push_cast
    ring

/-- A relation between the translations is a relation between the two numbers. -/
theorem AIET.Combines.relation {A : AIET T} {α β : T} {i j : Label → ℕ} (h : A.Combines α β i j) {n : Label → ℕ} (hn : ∃ a ∈ A.top, n a ≠ 0)
    (hs : (A.top.map (fun a => (n a : T) * A.transl a)).sum = 0) : ∃ N M : ℕ, N ≠ 0 ∧ (N : T) * α = M * β := by
  rw [sum_combines _ h.transl] at hs
  refine ⟨_, _, fun h0 => ?_, sub_eq_zero.mp hs⟩
  rw [h0] at hs
  have h1 : (A.top.map (fun a => n a * j a)).sum = 0 := by
    rcases mul_eq_zero.mp (show (((A.top.map (fun a => n a * j a)).sum : ℕ) : T) * β = 0 by simpa using hs) with h | h'
    · exact_mod_cast h
    · exact absurd h' h.pos.2.ne'
  obtain ⟨a, ha, hna⟩ := hn
  have e0 := List.sum_eq_zero_iff.mp h0 _ (List.mem_map_of_mem ha)
  have e1 := List.sum_eq_zero_iff.mp h1 _ (List.mem_map_of_mem ha)
  have := h.some a ha
  rcases Nat.mul_eq_zero.mp e0 with e0 | e0
  · exact hna e0
  · rcases Nat.mul_eq_zero.mp e1 with e1 | e1
    · exact hna e1
    · omega

theorem AIET.Combines.periodic {A : AIET T} (hA : A.Valid) {α β : T} {i j : Label → ℕ} (h : A.Combines α β i j) {ι : T →+ P} (hι : StrictMono ι)
    {N M : ℕ} (hN : N ≠ 0) (hrel : (N : T) * α = M * β) {x : P} (h0 : 0 ≤ x) (h1 : x < (A.map ι).total) : Periodic (A.map ι).Maps x := by
  have hrel' : (N : P) * ι α = M * ι β := by
    have := congrArg ι (show N • α = M • β by simpa [nsmul_eq_mul] using hrel)
    rw [map_nsmul, map_nsmul] at this
    simpa [nsmul_eq_mul] using this
  have hβ : 0 < ι β := by simpa using hι h.pos.2
  refine periodic_of_discrete (hA.map hι) (K := M + N) hN hβ ?_ (fun a ha => ⟨(i a * M : ℤ) - j a * N, ?_⟩) h0 h1
  · have : (A.map ι).total ≤ ι α + ι β := by
      rw [AIET.map_total, ← map_add]
      exact hι.monotone h.total
    have hNp : (0 : P) ≤ N := Nat.cast_nonneg N
    have := mul_le_mul_of_nonneg_left this hNp
    push_cast
    linarith
  · have e : (A.map ι).transl a = i a * ι α - j a * ι β := by
      rw [AIET.map_transl, h.transl a ha, map_sub]
      have e1 : ∀ (k : ℕ) (t : T), ι (k * t) = k * ι t := fun k t => by
        rw [← nsmul_eq_mul, map_nsmul, nsmul_eq_mul]
      rw [e1, e1]
    rw [e]
    push_cast
    linear_combination (i a : P) * hrel'

theorem AIET.Combines.saf_zero {A : AIET T} {α β : T} {i j : Label → ℕ} (h : A.Combines α β i j) {N M : ℕ} (hN : N ≠ 0)
    (hrel : (N : T) * α = M * β) : ∀ x ∈ safList c A, x = 0 := by
  rw [safList_zero_iff]
  intro p q _
  have hc : ∀ k : Fin d, (N : ℚ) * c α k = M * c β k := by
    intro k
    have := congrFun (congrArg c (show N • α = M • β by simpa [nsmul_eq_mul] using hrel)) k
    rw [map_nsmul, map_nsmul] at this
    simpa [nsmul_eq_mul] using this
  have hN' : (N : ℚ) ≠ 0 := by exact_mod_cast hN
  have := h.saf ((Pi.evalAddMonoidHom (fun _ => ℚ) p).comp c) ((Pi.evalAddMonoidHom (fun _ => ℚ) q).comp c)
  have e : A.saf (fun t => c t p) (fun t => c t q) = 2 * (c β p * c α q - c β q * c α p) := this
  rw [e]
  apply mul_left_cancel₀ hN'
  linear_combination 2 * c β p * hc q - 2 * c β q * hc p

/-- The irreducible exchanges of three intervals. -/
theorem combines_three {A : AIET T} (hA : A.Valid) (h3 : A.top.length = 3) (hirr : A.Irreducible) : ∃ α β i j, A.Combines α β i j := by
  obtain ⟨top, bottom, len⟩ := A
  match top, h3 with
  | [x, y, z], _ =>
    have hn : x ≠ y ∧ x ≠ z ∧ y ≠ z := by
      have := hA.nodup
      simp at this
      tauto
    obtain ⟨hxy, hxz, hyz⟩ := hn
    have px := hA.pos x (by simp)
    have py := hA.pos y (by simp)
    have pz := hA.pos z (by simp)
    simp only at px py pz
    have hp : bottom.Perm [x, y, z] := by first | exact hA.perm | exact hA.perm.symm
    have hb : bottom ∈ ([x, y, z] : List Label).permutations := List.mem_permutations.mpr hp
    have h1 := hirr 1 (by simp) (by simp)
    have h2 := hirr 2 (by simp) (by simp)
    have hb' : bottom = [x, y, z] ∨ bottom = [y, x, z] ∨ bottom = [z, y, x] ∨ bottom = [y, z, x] ∨ bottom = [z, x, y] ∨ bottom = [x, z, y] := by
      simpa [List.permutations, List.permutationsAux, List.permutationsAux.rec, List.permutationsAux2] using hb
    rcases hb' with rfl | rfl | rfl | rfl | rfl | rfl
    · exact absurd (List.Perm.refl _) h1
    · exact absurd (List.Perm.swap _ _ _) h2
    · refine ⟨len y + len z, len x + len y, fun l => if l = z then 0 else 1, fun l => if l = x then 0 else 1, ⟨⟨by linarith, by linarith⟩, ?_, ?_, ?_, ?_⟩⟩
      · simp [hxy, hxz, hyz, hxy.symm, hxz.symm, hyz.symm]
      · simp [AIET.transl, off, hxy, hxz, hyz, hxy.symm, hxz.symm, hyz.symm]
        constructor <;> ring
      · simp [AIET.total, sumLen]
        linarith
      · intro f g
        simp [AIET.saf, AIET.transl, off, hxy, hxz, hyz, hxy.symm, hxz.symm, hyz.symm]
        ring
    · refine ⟨len y + len z, len x, fun l => if l = x then 1 else 0, fun l => if l = x then 0 else 1, ⟨⟨by linarith, px⟩, ?_, ?_, ?_, ?_⟩⟩
      · simp [hxy, hxz, hyz, hxy.symm, hxz.symm, hyz.symm]
      · simp [AIET.transl, off, hxy, hxz, hyz, hxy.symm, hxz.symm, hyz.symm]
      · simp [AIET.total, sumLen]
        linarith
      · intro f g
        simp [AIET.saf, AIET.transl, off, hxy, hxz, hyz, hxy.symm, hxz.symm, hyz.symm]
        ring
    · refine ⟨len z, len x + len y, fun l => if l = z then 0 else 1, fun l => if l = z then 1 else 0, ⟨⟨pz, by linarith⟩, ?_, ?_, ?_, ?_⟩⟩
      · simp [hxy, hxz, hyz, hxy.symm, hxz.symm, hyz.symm]
      · simp [AIET.transl, off, hxy, hxz, hyz, hxy.symm, hxz.symm, hyz.symm]
      · simp [AIET.total, sumLen]
        linarith
      · intro f g
        simp [AIET.saf, AIET.transl, off, hxy, hxz, hyz, hxy.symm, hxz.symm, hyz.symm]
        ring
    · exact absurd (List.Perm.refl _) h1

end Verif
