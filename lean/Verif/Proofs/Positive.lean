import Verif.Proofs.Visits
import Verif.Proofs.Found
import Verif.Proofs.Independent

/-!
# Eventually all intervals are visited

When induction goes on forever at irreducible interval exchange transformations, then eventually all intervals visit all the original intervals. (Archimedean lengths.)
-/

namespace Verif

set_option linter.unusedSectionVars false

variable {T : Type} [CommRing T] [LinearOrder T] [IsStrictOrderedRing T]

/-! ### A single step -/

theorem Beats.inv {A B : AIET T} {w l : Label} (hA : A.Valid) (hB : B.Valid) (h : Beats A B w l) : Beats A.inv B.inv w l := by
  refine ⟨h.ne, hA.perm.mem_iff.mpr h.mem_w, hA.perm.mem_iff.mpr h.mem_l, h.len, ?_, ?_⟩
  · rw [hA.total_inv, hB.total_inv]; exact h.total
  · simp only [AIET.inv_inv]
    exact h.side.symm

theorem RauzyTop.unwinds_beats {A B : AIET T} (hA : A.Valid) (h : RauzyTop A B) {w l : Label} (hb : Beats A B w l) :
    ∃ δ u, Unwinds A δ B u ∧ (∀ a, a ∈ u a) ∧ w ∈ u l := by
  obtain ⟨δ, a, b, h1, h2, h3, h4⟩ := h.unwinds_by hA
  have hbm : b ∈ A.top := hA.perm.mem_iff.mp (List.mem_of_head? h2)
  have hpos := hA.pos b hbm
  have e : a = w := by
    by_contra hne
    have h5 := congrFun (hb.len.symm.trans h3) a
    have h6 : shorten A.len w (A.len l) a = A.len a := shorten_congr _ _ (l := [a]) (by simpa using fun e => hne e.symm) a (by simp)
    rw [h6, shorten_eq] at h5
    linarith
  subst e
  have e2 : b = l := by
    rcases hb.side with ⟨-, h5, -⟩ | ⟨-, h5, -⟩
    · exact Option.some.inj (h2.symm.trans h5)
    · exact absurd (Option.some.inj (h1.symm.trans h5)) hb.ne
  subst e2
  exact ⟨δ, _, h4, fun c => by by_cases h : c = b <;> simp [h], by simp⟩

theorem RauzyStep.unwinds_beats {A B : AIET T} (hA : A.Valid) (h : RauzyStep A B) {w l : Label} (hb : Beats A B w l) :
    ∃ δ u, Unwinds A δ B u ∧ (∀ a, a ∈ u a) ∧ w ∈ u l := by
  have hB : B.Valid := Steps.valid hA (.single h)
  rcases h with h | h
  · exact h.unwinds_beats hA hb
  · obtain ⟨δ, u, h1, h2, h3⟩ := h.unwinds_beats hA.inv (hb.inv hA hB)
    exact ⟨δ, _, h1.inv hA.inv hB.inv, fun a => List.mem_reverse.mpr (h2 a), List.mem_reverse.mpr h3⟩

/-! ### All steps -/

variable {E : ℕ → AIET T} {w l : ℕ → Label}

/-- The interval that wins is one of the two intervals that play in the next step. -/
theorem Game.stays (h : Game E w l) (m : ℕ) : w m = w (m + 1) ∨ w m = l (m + 1) := by
  have key : (E (m + 1)).top.head? = some (w m) ∨ (E (m + 1)).bottom.head? = some (w m) := by
    rcases (h.beats m).side with ⟨h1, -, h2, -⟩ | ⟨h1, -, h2, -⟩
    · exact .inl (by rw [h2]; exact h1)
    · exact .inr (by have : (E (m + 1)).bottom = (E m).bottom := h2; rw [this]; exact h1)
  rcases key with h1 | h1 <;> rcases (h.beats (m + 1)).side with ⟨h2, h3, -⟩ | ⟨h2, h3, -⟩
  · exact .inl (Option.some.inj (h1.symm.trans h2))
  · exact .inr (Option.some.inj (h1.symm.trans h3))
  · exact .inr (Option.some.inj (h1.symm.trans h3))
  · exact .inl (Option.some.inj (h1.symm.trans h2))

/-- A set of labels that grows from step to step and that gets the loser when it has the winner, has all labels eventually. -/
theorem Game.spreads (h : Game E w l) (hw : ∀ a ∈ (E 0).top, Often (fun m => w m = a)) {p : ℕ → Label → Prop} {x : Label} (hx : x ∈ (E 0).top) (h0 : p 0 x)
    (hmono : ∀ n a, p n a → p (n + 1) a) (hwin : ∀ n, p n (w n) → p (n + 1) (l n)) : ∃ N, ∀ n, N ≤ n → ∀ a ∈ (E 0).top, p n a := by
  classical
  have hmono' : ∀ {n m a}, n ≤ m → p n a → p m a := by
    intro n m a hnm hp
    induction m, hnm using Nat.le_induction with
    | base => exact hp
    | succ m _ ih => exact hmono m a ih
  -- from some step on nothing is added anymore
  have hst : ∀ s : List Label, ∃ N, ∀ a ∈ s, ∀ n, N ≤ n → p n a → p N a := by
    intro s
    induction s with
    | nil => exact ⟨0, by simp⟩
    | cons b s ih =>
      obtain ⟨N, hN⟩ := ih
      by_cases hb : ∃ n, p n b
      · obtain ⟨k, hk⟩ := hb
        refine ⟨max N k, fun a ha n hn hp => ?_⟩
        rcases List.mem_cons.mp ha with rfl | ha
        · exact hmono' (le_max_right _ _) hk
        · exact hmono' (le_max_left _ _) (hN a ha n ((le_max_left _ _).trans hn) hp)
      · refine ⟨N, fun a ha n hn hp => ?_⟩
        rcases List.mem_cons.mp ha with rfl | ha
        · exact absurd ⟨n, hp⟩ hb
        · exact hN a ha n hn hp
  obtain ⟨N, hN⟩ := hst (E 0).top
  refine ⟨N, fun n hn a ha => hmono' hn ?_⟩
  by_contra hna
  -- the winners are not in the set once such a winner shows up
  have hl : ∀ n, N ≤ n → p N (w n) → p N (l n) := fun n hn hp =>
    hN _ (h.path.mem.mp (h.beats n).mem_l) (n + 1) (by omega) (hwin n (hmono' hn hp))
  have hout : ∀ n, N ≤ n → ¬ p N (w n) → ¬ p N (w (n + 1)) := by
    intro n hn hp hp'
    rcases h.stays n with e | e
    · exact hp (by rw [e]; exact hp')
    · exact hp (by rw [e]; exact hl (n + 1) (by omega) hp')
  obtain ⟨k, hk, ek⟩ := hw a ha N
  have hall : ∀ n, k ≤ n → ¬ p N (w n) := by
    intro n hkn
    induction n, hkn using Nat.le_induction with
    | base => rw [show w k = a from ek]; exact hna
    | succ n hn' ih => exact hout n (by omega) ih
  obtain ⟨j, hj, ej⟩ := hw x hx k
  exact hall j hj (by rw [show w j = x from ej]; exact hmono' (Nat.zero_le N) h0)

/-- Along infinitely many steps that are irreducible infinitely often, all intervals visit all the original intervals eventually. -/
theorem RauzyPath.positive [Archimedean T] (h : RauzyPath E) (hirr : Often (fun m => (E m).Irreducible)) :
    ∃ N, ∀ n, N ≤ n → ∃ δ v, Unwinds (E 0) δ (E n) v ∧ ∀ x ∈ (E 0).top, ∀ y ∈ (E 0).top, x ∈ v y := by
  obtain ⟨w, l, hg⟩ := h.game
  have hlose := hg.often hirr
  have hwin : ∀ a ∈ (E 0).top, Often (fun m => w m = a) := fun a ha => hg.wins (hlose a ha)
  choose δ u h1 h2 h3 using fun m => (h.step m).unwinds_beats (h.valid' m) (hg.beats m)
  let v : ℕ → Label → List Label := fun n => Nat.rec (fun a => [a]) (fun n v a => if a ∈ (E n).top then (u n a).flatMap v else v a) n
  have hv : ∀ n, ∃ η, Unwinds (E 0) η (E n) (v n) := by
    intro n
    induction n with
    | zero => exact ⟨0, .refl h.valid⟩
    | succ n ih =>
      obtain ⟨η, hη⟩ := ih
      exact ⟨_, hη.trans (h.valid' n) (h.valid' (n + 1)) (h1 n)⟩
  have hs : ∀ n a, a ∈ (E 0).top → v (n + 1) a = (u n a).flatMap (v n) := fun n a ha => if_pos (h.mem.mp ha)
  have key : ∀ x ∈ (E 0).top, ∃ N, ∀ n, N ≤ n → ∀ y ∈ (E 0).top, x ∈ v n y := by
    intro x hx
    obtain ⟨N, hN⟩ := hg.spreads hwin (p := fun n a => a ∈ (E 0).top ∧ x ∈ v n a) hx ⟨hx, List.mem_singleton_self x⟩
      (fun n a ⟨ha, hp⟩ => ⟨ha, by rw [hs n a ha]; exact List.mem_flatMap.mpr ⟨a, h2 n a, hp⟩⟩)
      (fun n ⟨_, hp⟩ => by
        have hl : l n ∈ (E 0).top := h.mem.mp (hg.beats n).mem_l
        exact ⟨hl, by rw [hs n _ hl]; exact List.mem_flatMap.mpr ⟨w n, h3 n, hp⟩⟩)
    exact ⟨N, fun n hn y hy => (hN n hn y hy).2⟩
  have hall : ∀ s : List Label, (∀ x ∈ s, x ∈ (E 0).top) → ∃ N, ∀ n, N ≤ n → ∀ x ∈ s, ∀ y ∈ (E 0).top, x ∈ v n y := by
    intro s
    induction s with
    | nil => exact fun _ => ⟨0, by simp⟩
    | cons x s ih =>
      intro hx
      obtain ⟨N, hN⟩ := ih (fun y hy => hx y (List.mem_cons_of_mem _ hy))
      obtain ⟨M, hM⟩ := key x (hx x List.mem_cons_self)
      refine ⟨max N M, fun n hn z hz => ?_⟩
      rcases List.mem_cons.mp hz with rfl | hz
      · exact hM n ((le_max_right _ _).trans hn)
      · exact hN n ((le_max_left _ _).trans hn) z hz
  obtain ⟨N, hN⟩ := hall (E 0).top (fun _ hx => hx)
  refine ⟨N, fun n hn => ?_⟩
  obtain ⟨η, hη⟩ := hv n
  exact ⟨η, v n, hη, hN n hn⟩

/-- The same for the rounds of induction: after sufficiently many rounds all intervals visit all the original intervals. -/
theorem rounds_positive [Archimedean T] {A : AIET T} (hA : A.Valid) (hi : A.Irreducible) :
    ∃ N, ∀ n, N ≤ n → ∀ B, Iter Round n A B → ∃ δ v, Unwinds A δ B v ∧ ∀ x ∈ A.top, ∀ y ∈ A.top, x ∈ v y := by
  by_cases hall : ∀ n, ∃ B, Iter Round n A B
  · choose F hF using hall
    have hstep : ∀ n, Round (F n) (F (n + 1)) := by
      intro n
      obtain ⟨y, h1, h2⟩ := (hF (n + 1)).snoc
      rwa [rounds_unique hA (hF n) h1]
    obtain ⟨E, e1, e2, e3⟩ := exists_flat (fun n => (hstep n).transGen (rounds_valid hA (hF n)))
    have h0 : F 0 = A := (show A = F 0 from hF 0).symm
    have hE0 : E 0 = A := by rw [e1, h0]
    have hp : RauzyPath E := ⟨by rw [hE0]; exact hA, e2⟩
    have hirr : Often (fun m => (E m).Irreducible) := fun m =>
      ⟨m, le_refl _, Steps.irreducible hp.valid (hp.steps (Nat.zero_le m)) (by rw [hE0]; exact hi)⟩
    obtain ⟨N, hN⟩ := hp.positive hirr
    rw [hE0] at hN
    refine ⟨N, fun n hn B hB => ?_⟩
    obtain ⟨m, hm, e⟩ := e3 n
    have := hN m (hn.trans hm)
    rwa [e, rounds_unique hA (hF n) hB] at this
  · push Not at hall
    obtain ⟨N, hN⟩ := hall
    refine ⟨N, fun n hn B hB => ?_⟩
    obtain ⟨k, rfl⟩ := Nat.exists_eq_add_of_le hn
    obtain ⟨C, hC⟩ := hB.shorter
    exact absurd hC (hN C)

end Verif
