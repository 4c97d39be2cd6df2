import Verif.Proofs.Settle
import Verif.Proofs.Steps

/-!
# Saddle connections and periodic points are found

As long as there is an orbit between end points of intervals, or a periodic point, only finitely many rounds of induction can be performed at irreducible interval
exchange transformations. (Archimedean lengths of any rank.)
-/

namespace Verif

set_option linter.unusedSectionVars false

variable {T : Type} [CommRing T] [LinearOrder T] [IsStrictOrderedRing T]

/-- After `N` or more rounds of induction that start here, there are no irreducible transformations anymore. -/
def EndsBy (A : AIET T) (N : ℕ) : Prop := ∀ n, N ≤ n → ∀ B, Iter Round n A B → ¬ B.Irreducible

theorem EndsBy.settles {d : ℕ} {c : T →+ (Fin d → ℚ)} {A : AIET T} {N : ℕ} (h : EndsBy A N) : Settles c A N :=
  fun n hn B hB hi => absurd hi (h n hn B hB)

/-- When there are arbitrarily many rounds to irreducible transformations, then there are no orbits between end points. -/
theorem not_joined_of_not_endsBy [Archimedean T] {A : AIET T} (hA : A.Valid) (hno : ∀ N, ¬ EndsBy A N) :
    (∀ n e d, ¬ Joined A n e d) ∧ ∃ t b, A.top.head? = some t ∧ A.bottom.head? = some b ∧ t ≠ b := by
  unfold EndsBy at hno
  push Not at hno
  have hall : ∀ n, ∃ B, Iter Round n A B := by
    intro n
    obtain ⟨m, hm, B, hB, -⟩ := hno n
    obtain ⟨k, rfl⟩ := Nat.exists_eq_add_of_le hm
    exact hB.shorter
  choose F hF using hall
  have hstep : ∀ n, Round (F n) (F (n + 1)) := by
    intro n
    obtain ⟨y, h1, h2⟩ := (hF (n + 1)).snoc
    rwa [rounds_unique hA (hF n) h1]
  obtain ⟨E, e1, e2, e3⟩ := exists_flat (fun n => (hstep n).transGen (rounds_valid hA (hF n)))
  have h0 : F 0 = A := (show A = F 0 from hF 0).symm
  have hE0 : E 0 = A := by rw [e1, h0]
  have hp : RauzyPath E := ⟨by rw [hE0]; exact hA, e2⟩
  have hirr : Often (fun m => (E m).Irreducible) := by
    intro m
    obtain ⟨n, hn, B, hB, hi⟩ := hno m
    obtain ⟨k, hk, e⟩ := e3 n
    refine ⟨k, by omega, ?_⟩
    show (E k).Irreducible
    rw [e, ← rounds_unique hA hB (hF n)]
    exact hi
  refine ⟨fun n e d hj => hp.not_joined hirr (hE0 ▸ hj), ?_⟩
  obtain ⟨w, l, hb⟩ := (e2 0).beats (hE0 ▸ hA)
  rw [hE0] at hb
  rcases hb.side with ⟨h1, h2, -⟩ | ⟨h1, h2, -⟩
  · exact ⟨w, l, h1, h2, hb.ne⟩
  · exact ⟨l, w, h2, h1, hb.ne.symm⟩

/-- When there is a periodic point, or an orbit between end points, then the rounds of induction come to an end or become reducible. -/
theorem exists_endsBy [Archimedean T] {A : AIET T} (hA : A.Valid) (h : (∃ x, Periodic A.Maps x) ∨ ∃ n e d, Joined A n e d) : ∃ N, EndsBy A N := by
  by_contra hno
  push Not at hno
  obtain ⟨hj, t, b, ht, hb, hne⟩ := not_joined_of_not_endsBy hA hno
  rcases h with ⟨x, hx⟩ | ⟨n, e, d, h⟩
  · exact no_periodic_of_not_joined hA ht hb hne hj x hx
  · exact hj n e d h

/-! ### Orbits in a larger domain -/

variable {P : Type} [CommRing P] [LinearOrder P] [IsStrictOrderedRing P] {ι : T →+ P}

theorem AIET.Maps.of_map (hι : StrictMono ι) {A : AIET T} {x : T} {y : P} (h : (A.map ι).Maps (ι x) y) : ∃ y', y = ι y' ∧ A.Maps x y' := by
  obtain ⟨a, h1, h2, h3, rfl⟩ := h
  simp only [AIET.map, off_map] at h2 h3 ⊢
  rw [← map_add] at h3
  exact ⟨x - off A.len A.top a + off A.len A.bottom a, by rw [map_add, map_sub], a, h1, hι.le_iff_le.mp h2, hι.lt_iff_lt.mp h3, rfl⟩

theorem Iter.of_map (hι : StrictMono ι) {A : AIET T} : ∀ {n : ℕ} {x : T} {y : P}, Iter (A.map ι).Maps n (ι x) y → ∃ y', y = ι y' ∧ Iter A.Maps n x y'
  | 0, x, _, h => ⟨x, h.symm, rfl⟩
  | n + 1, x, y, ⟨z, h1, h2⟩ => by
    obtain ⟨z', rfl, h3⟩ := AIET.Maps.of_map hι h1
    obtain ⟨y', h4, h5⟩ := Iter.of_map hι h2
    exact ⟨y', h4, z', h3, h5⟩

theorem Joined.of_map (hι : StrictMono ι) {A : AIET T} {n : ℕ} {e d : P} (h : Joined (A.map ι) n e d) : ∃ e' d', Joined A n e' d' := by
  obtain ⟨⟨b, hb, he⟩, ⟨t, ht, hd⟩, h3, h4, h5⟩ := h
  simp only [AIET.map, off_map] at hb he ht hd
  subst he
  obtain ⟨d', rfl, h6⟩ := Iter.of_map hι h5
  have := hι.injective hd
  rw [← map_zero ι] at h3 h4
  exact ⟨_, d', ⟨b, hb, rfl⟩, ⟨t, ht, this⟩, hι.lt_iff_lt.mp h3, hι.lt_iff_lt.mp h4, h6⟩

/-- The same for periodic points in a larger domain. -/
theorem exists_endsBy_map [Archimedean T] (hι : StrictMono ι) {A : AIET T} (hA : A.Valid) (h : ∃ x, Periodic (A.map ι).Maps x) : ∃ N, EndsBy A N := by
  by_contra hno
  push Not at hno
  obtain ⟨hj, t, b, ht, hb, hne⟩ := not_joined_of_not_endsBy hA hno
  obtain ⟨x, hx⟩ := h
  refine no_periodic_of_not_joined (hA.map hι) ht hb hne (fun n e d h => ?_) x hx
  obtain ⟨e', d', h⟩ := h.of_map hι
  exact hj _ _ _ h

end Verif
