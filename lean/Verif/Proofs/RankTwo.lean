import Verif.Proofs.Direction
import Verif.Proofs.Bosh
import Mathlib.Algebra.Order.Archimedean.Basic
import Mathlib.Algebra.Order.Floor.Ring
import Mathlib.Data.Rat.Floor
import Mathlib.Order.Interval.Finset.Defs
import Mathlib.Data.Int.Interval

/-!
# Lengths with two rational coordinates

When lengths have two rational coordinates, e.g., when they are in a quadratic number field, then Rauzy induction eventually leads to an IET that satisfies
Boshernitzan's criterion, unless it stops.
-/

namespace Verif

set_option linter.unusedSectionVars false

variable {T : Type} [CommRing T] [LinearOrder T] [IsStrictOrderedRing T]

/-- The coordinates of the elements of a finitely generated group have a common denominator. -/
theorem exists_common_denominator (c : T →+ (Fin 2 → ℚ)) (l : List T) :
    ∃ N : ℕ, 0 < N ∧ ∀ v ∈ AddSubgroup.closure {v : T | v ∈ l}, ∀ i, ∃ z : ℤ, (N : ℚ) * c v i = z := by
  have key : ∃ N : ℕ, 0 < N ∧ ∀ v ∈ l, ∀ i, ∃ z : ℤ, (N : ℚ) * c v i = z := by
    induction l with
    | nil => exact ⟨1, one_pos, by simp⟩
    | cons v l ih =>
      obtain ⟨N, hN, h⟩ := ih
      refine ⟨N * ((c v 0).den * (c v 1).den), Nat.mul_pos hN (Nat.mul_pos (c v 0).den_pos (c v 1).den_pos), ?_⟩
      have e0 : ((c v 0).den : ℚ) * c v 0 = (c v 0).num := by rw [mul_comm]; exact Rat.mul_den_eq_num _
      have e1 : ((c v 1).den : ℚ) * c v 1 = (c v 1).num := by rw [mul_comm]; exact Rat.mul_den_eq_num _
      intro w hw i
      rcases List.mem_cons.mp hw with rfl | hw
      · fin_cases i
        · refine ⟨N * (c w 1).den * (c w 0).num, ?_⟩
          push_cast
          rw [← e0]
          show (N * ((c w 0).den * (c w 1).den) : ℚ) * c w 0 = _
          ring
        · refine ⟨N * (c w 0).den * (c w 1).num, ?_⟩
          push_cast
          rw [← e1]
          show (N * ((c w 0).den * (c w 1).den) : ℚ) * c w 1 = _
          ring
      · obtain ⟨z, hz⟩ := h w hw i
        refine ⟨(c v 0).den * (c v 1).den * z, ?_⟩
        push_cast
        rw [← hz]
        ring
  obtain ⟨N, hN, h⟩ := key
  refine ⟨N, hN, fun v hv i => ?_⟩
  induction hv using AddSubgroup.closure_induction with
  | mem v hv => exact h v hv i
  | zero => exact ⟨0, by simp⟩
  | add v w _ _ h1 h2 =>
    obtain ⟨z, hz⟩ := h1
    obtain ⟨z', hz'⟩ := h2
    refine ⟨z + z', ?_⟩
    rw [map_add, Pi.add_apply, mul_add, hz, hz']
    push_cast
    ring
  | neg v _ h1 =>
    obtain ⟨z, hz⟩ := h1
    refine ⟨-z, ?_⟩
    rw [map_neg, Pi.neg_apply, mul_neg, hz]
    push_cast
    ring

/-- There are only finitely many elements of a finitely generated group in a rectangle. -/
theorem finite_rectangle [Archimedean T] (c : T →+ (Fin 2 → ℚ)) (hc : ∀ x, c x = 0 → x = 0) (l : List T) (X : T) (h : ℚ) :
    {v : T | v ∈ AddSubgroup.closure {v : T | v ∈ l} ∧ |v| ≤ X ∧ |coefAt c 0 v| ≤ h}.Finite := by
  classical
  obtain ⟨N, hN, hden⟩ := exists_common_denominator c l
  set Λ := AddSubgroup.closure {v : T | v ∈ l} with hΛ
  have hN' : (0 : ℚ) < N := by exact_mod_cast hN
  choose! z hz using hden
  have hy : ∀ v, coefAt c 0 v = c v 0 := fun v => rfl
  -- the elements on a vertical line
  have hline : ∀ Y : T, {u : T | u ∈ Λ ∧ c u 0 = 0 ∧ |u| ≤ Y}.Finite := by
    intro Y
    by_cases hex : ∃ u₀ ∈ Λ, c u₀ 0 = 0 ∧ u₀ ≠ 0
    · obtain ⟨u₀, m0, e0, n0⟩ := hex
      obtain ⟨K, hK⟩ := Archimedean.arch (|(z u₀ 1 : T)| * Y) (abs_pos.mpr n0)
      have hprop : ∀ u ∈ Λ, c u 0 = 0 → (z u₀ 1 : T) * u = (z u 1 : T) * u₀ := by
        intro u mu eu
        have : c (z u₀ 1 • u - z u 1 • u₀) = 0 := by
          funext i
          rw [map_sub, map_zsmul, map_zsmul]
          fin_cases i
          · simp [eu, e0]
          · have a1 := hz u₀ m0 1
            have a2 := hz u mu 1
            show z u₀ 1 • c u 1 - z u 1 • c u₀ 1 = 0
            rw [zsmul_eq_mul, zsmul_eq_mul]
            rw [← a1, ← a2]
            ring
        have h2 := sub_eq_zero.mp (hc _ this)
        rwa [zsmul_eq_mul, zsmul_eq_mul] at h2
      refine Set.Finite.of_finite_image (f := fun u => z u 1) ?_ ?_
      · refine (Finset.finite_toSet (Finset.Icc (-(K : ℤ)) K)).subset ?_
        rintro _ ⟨u, ⟨mu, eu, lu⟩, rfl⟩
        simp only [Finset.coe_Icc, Set.mem_Icc]
        rw [← abs_le]
        have h1 := congrArg abs (hprop u mu eu)
        rw [abs_mul, abs_mul] at h1
        have h2 : |(z u₀ 1 : T)| * |u| ≤ |(z u₀ 1 : T)| * Y := mul_le_mul_of_nonneg_left lu (abs_nonneg _)
        rw [nsmul_eq_mul] at hK
        have h3 : |(z u 1 : T)| * |u₀| ≤ (K : T) * |u₀| := by rw [← h1]; exact h2.trans hK
        have h4 : |(z u 1 : T)| ≤ (K : T) := le_of_mul_le_mul_right h3 (abs_pos.mpr n0)
        exact_mod_cast h4
      · rintro u ⟨mu, eu, -⟩ v ⟨mv, ev, -⟩ e
        have e' : z u 1 = z v 1 := e
        apply sub_eq_zero.mp
        apply hc
        funext i
        rw [map_sub]
        fin_cases i
        · simp [eu, ev]
        · have a1 := hz u mu 1
          have a2 := hz v mv 1
          rw [e', ← a2] at a1
          have := mul_left_cancel₀ hN'.ne' a1
          simp [this]
    · push Not at hex
      refine (Set.finite_singleton (0 : T)).subset ?_
      rintro u ⟨mu, eu, -⟩
      exact hex u mu eu
  obtain ⟨K, hK⟩ := exists_nat_ge ((N : ℚ) * h)
  have hsub : {v : T | v ∈ Λ ∧ |v| ≤ X ∧ |coefAt c 0 v| ≤ h} ⊆ ⋃ k ∈ Finset.Icc (-(K : ℤ)) K, {v : T | v ∈ Λ ∧ |v| ≤ X ∧ z v 0 = k} := by
    rintro v ⟨mv, lv, hv⟩
    simp only [Set.mem_iUnion]
    refine ⟨z v 0, ?_, mv, lv, rfl⟩
    rw [Finset.mem_Icc, ← abs_le]
    have a1 := hz v mv 0
    have : |(z v 0 : ℚ)| ≤ K := by
      rw [← a1, abs_mul, abs_of_pos hN']
      exact (mul_le_mul_of_nonneg_left hv hN'.le).trans hK
    exact_mod_cast this
  refine Set.Finite.subset (Set.Finite.biUnion (Finset.finite_toSet _) fun k _ => ?_) hsub
  rcases Set.eq_empty_or_nonempty {v : T | v ∈ Λ ∧ |v| ≤ X ∧ z v 0 = k} with he | ⟨v₀, m0, l0, e0⟩
  · rw [he]; exact Set.finite_empty
  · refine Set.Finite.subset ((hline (X + X)).image (fun u => u + v₀)) ?_
    rintro v ⟨mv, lv, ev⟩
    refine ⟨v - v₀, ⟨Λ.sub_mem mv m0, ?_, ?_⟩, by simp⟩
    · have a1 := hz v mv 0
      have a2 := hz v₀ m0 0
      rw [ev, ← e0, ← a2] at a1
      have := mul_left_cancel₀ hN'.ne' a1
      simp [this]
    · exact (abs_sub _ _).trans (add_le_add lv l0)

theorem dot_pos : ∀ {l x : List ℚ}, x.length = l.length → (∀ a ∈ l, 0 < a) → (∀ v ∈ x, 0 ≤ v) → (∃ v ∈ x, v ≠ 0) → 0 < dot l x
  | [], [], _, _, _, ⟨_, h, _⟩ => by cases h
  | [], _ :: _, h, _, _, _ => by simp at h
  | _ :: _, [], h, _, _, _ => by simp at h
  | a :: l, v :: x, h, h1, h2, h3 => by
    have ha := h1 a (by simp)
    have hv := h2 v (by simp)
    have hlen : x.length = l.length := by simpa using h
    unfold dot
    by_cases hx : ∃ w ∈ x, w ≠ 0
    · have := dot_pos hlen (fun b hb => h1 b (List.mem_cons_of_mem _ hb)) (fun b hb => h2 b (List.mem_cons_of_mem _ hb)) hx
      have := mul_nonneg ha.le hv
      linarith
    · push Not at hx
      have h0 : ∀ {l x : List ℚ}, (∀ w ∈ x, w = 0) → dot l x = 0 := by
        intro l
        induction l with
        | nil => intro x _; simp [dot]
        | cons b l ih =>
          intro x hx
          cases x with
          | nil => simp [dot]
          | cons w x => simp [dot, hx w (by simp), ih (fun u hu => hx u (List.mem_cons_of_mem _ hu))]
      rw [h0 hx]
      obtain ⟨w, hw, hw0⟩ := h3
      rcases List.mem_cons.mp hw with rfl | hw
      · have := mul_pos ha (lt_of_le_of_ne hv (Ne.symm hw0))
        linarith
      · exact absurd (hx w hw) hw0

theorem dot_neg' : ∀ {l x : List ℚ}, dot (l.map (fun a => -a)) x = - dot l x
  | [], _ => by simp [dot]
  | _ :: _, [] => by simp [dot]
  | a :: l, v :: x => by simp only [List.map_cons, dot, dot_neg' (l := l) (x := x)]; ring

variable {E : ℕ → AIET T}

theorem RauzyPath.len_mem (h : RauzyPath E) {Λ : AddSubgroup T} (hΛ : ∀ a ∈ (E 0).top, (E 0).len a ∈ Λ) : ∀ m, ∀ a ∈ (E 0).top, (E m).len a ∈ Λ
  | 0 => hΛ
  | m + 1 => by
    intro a ha
    obtain ⟨w, l, hb⟩ := (h.step m).beats (h.valid' m)
    rw [hb.len]
    unfold shorten
    have ih := h.len_mem hΛ m
    split
    · exact Λ.sub_mem (ih _ (h.mem.mp hb.mem_w)) (ih _ (h.mem.mp hb.mem_l))
    · exact ih _ ha

/-- **When there are two coordinates, then eventually there is no relation with non-negative coefficients between the translations.** -/
theorem RauzyPath.not_posRelation [Archimedean T] (h : RauzyPath E) (hirr : Often (fun m => (E m).Irreducible)) (c : T →+ (Fin 2 → ℚ))
    (hc : ∀ x, c x = 0 → x = 0) : ∃ M, ∀ m, M ≤ m → ¬ PosRelation c (E m) := by
  set l := (E 0).top.map (E 0).len with hl
  set Λ := AddSubgroup.closure {v : T | v ∈ l} with hΛdef
  set y := coefAt c 0 with hy
  have hA := h.valid
  have hΛ : ∀ a ∈ (E 0).top, (E 0).len a ∈ Λ := fun a ha => AddSubgroup.subset_closure (List.mem_map_of_mem ha)
  have hmem := h.len_mem hΛ
  have hL : IsLattice Λ y := by
    refine ⟨fun X k => finite_rectangle c hc l X k, fun η hη => ?_⟩
    obtain ⟨m, hm⟩ := h.shrinks hirr hη
    obtain ⟨w, a, hb⟩ := (h.step m).beats (h.valid' m)
    refine ⟨(E m).len a, hmem m a (h.mem.mp hb.mem_l), (h.valid' m).pos a hb.mem_l, lt_of_le_of_lt ?_ (hm m (le_refl _))⟩
    have h1 := hb.total
    have h2 := (h.valid' (m + 1)).maps_range ((h.valid' (m + 1)).maps_off (h.mem.mp hb.mem_l))
    linarith [h2.1, h2.2]
  obtain ⟨w, l', hb⟩ := (h.step 0).beats hA
  have hne : (E 0).top ≠ [] := hA.ne_nil
  obtain ⟨x, hx⟩ : ∃ x, (E 0).top.head? = some x := ⟨_, List.head?_eq_some_head hne⟩
  have hne' : (E 0).bottom ≠ [] := fun e => hne (by have := hA.perm; rw [e] at this; simpa using this)
  obtain ⟨z, hz⟩ : ∃ z, (E 0).bottom.head? = some z := ⟨_, List.head?_eq_some_head hne'⟩
  have hxz : x ≠ z := by
    rcases hb.side with ⟨h1, h2, -⟩ | ⟨h1, h2, -⟩
    · rw [hx] at h1
      rw [hz] at h2
      rw [Option.some.inj h1, Option.some.inj h2]
      exact hb.ne
    · rw [show (E 0).inv.top = (E 0).bottom from rfl, hz] at h1
      rw [show (E 0).inv.bottom = (E 0).top from rfl, hx] at h2
      rw [Option.some.inj h1, Option.some.inj h2]
      exact hb.ne.symm
  have hj : ∀ n e d, ¬ Joined (E 0) n e d := fun n e d => h.not_joined hirr
  have hfree := no_periodic_of_not_joined hA hx hz hxz hj
  obtain ⟨f, hf⟩ := exists_acts hA hΛ
  obtain ⟨B, hB⟩ := hf.one_way hA hL hΛ hx hz hxz hj
  obtain ⟨μ, hμ, hhigh⟩ := hL.high B
  obtain ⟨M, hM⟩ := h.shrinks hirr hμ
  refine ⟨M, fun m hm hrel => ?_⟩
  obtain ⟨δ, hfwd⟩ := Steps.fwd hA (h.steps (Nat.zero_le m))
  have hv := h.valid' m
  have hm1 : ∀ a ∈ (E m).top, (E m).len a ∈ Λ := fun a ha => hmem m a (h.mem.mp ha)
  have hm2 : ∀ a ∈ (E m).bottom, (E m).len a ∈ Λ := fun a ha => hmem m a (h.mem_bottom.mp ha)
  have hδ : δ ∈ Λ := by
    have e : δ = (E 0).total - (E m).total := by linarith [hfwd.total_eq]
    rw [e]
    exact Λ.sub_mem (sumLen_mem hΛ) (sumLen_mem hm1)
  -- the translations are iterates
  have htr : ∀ a ∈ (E m).top, B < |y ((E m).transl a)| ∧ ∃ (p : LatticePoint Λ (E 0).total) (i : ℕ), (f^[i] p).1 = p.1 + (E m).transl a := by
    intro a ha
    have hmaps := hv.maps_off ha
    have hr := hv.maps_range hmaps
    have hd := hv.maps_range (hv.maps_inv.mp (hv.inv.maps_off (hv.perm.mem_iff.mpr ha)))
    have hdom := hv.maps_dom hmaps
    have htg := hfwd.transGen_lift (Relation.TransGen.single hmaps)
    have ht0 : (E m).transl a ≠ 0 := by
      intro e
      unfold AIET.transl at e
      have e' : off (E m).len (E m).bottom a = off (E m).len (E m).top a := by linarith
      rw [e'] at htg
      exact hfree _ htg
    have htm : (E m).transl a ∈ Λ := Λ.sub_mem (off_mem a hm2) (off_mem a hm1)
    have habs : |(E m).transl a| < μ := by
      have := hM m hm
      unfold AIET.transl
      rw [abs_lt]
      constructor <;> linarith [hr.1, hr.2, hdom.1, hdom.2]
    refine ⟨hhigh _ htm ht0 habs, ?_⟩
    obtain ⟨n, hn⟩ := exists_iter_succ htg
    have ht := hfwd.total_eq
    let p : LatticePoint Λ (E 0).total := ⟨off (E m).len (E m).top a + δ, by linarith [hdom.1, hfwd.nonneg], by linarith [hdom.2], Λ.add_mem (off_mem a hm1) hδ⟩
    refine ⟨p, n + 1, ?_⟩
    rw [← Acts.iter_eq hA hf (p := p) hn]
    show _ = off (E m).len (E m).top a + δ + (E m).transl a
    unfold AIET.transl
    ring
  obtain ⟨u, u1, u2, u3, u4⟩ := hrel
  have u5 := u4 0 (by omega)
  rcases hB with hB | hB
  · have : ∀ a ∈ (E m).top.map (fun a => coefAt c 0 ((E m).transl a)), 0 < a := by
      intro q hq
      obtain ⟨a, ha, rfl⟩ := List.mem_map.mp hq
      obtain ⟨h1, p, i, h2⟩ := htr a ha
      have h3 := hB p i
      rw [h2, map_add] at h3
      by_contra hle
      rw [abs_of_nonpos (not_lt.mp hle)] at h1
      linarith
    exact absurd u5 (dot_pos (by simpa using u1) this u2 u3).ne'
  · have : ∀ a ∈ ((E m).top.map (fun a => coefAt c 0 ((E m).transl a))).map (fun a => -a), 0 < a := by
      intro q hq
      obtain ⟨q', hq', rfl⟩ := List.mem_map.mp hq
      obtain ⟨a, ha, rfl⟩ := List.mem_map.mp hq'
      obtain ⟨h1, p, i, h2⟩ := htr a ha
      have h3 := hB p i
      rw [h2, map_add] at h3
      by_contra hle
      have hnn : 0 ≤ y ((E m).transl a) := by
        have : ¬ 0 < - y ((E m).transl a) := hle
        linarith
      rw [abs_of_nonneg hnn] at h1
      linarith
    have h5 := dot_pos (x := u) (by simpa using u1) this u2 u3
    rw [dot_neg', u5] at h5
    simp at h5

end Verif
