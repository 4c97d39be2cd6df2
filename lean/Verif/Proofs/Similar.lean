import Verif.Proofs.Induce
import Mathlib.Algebra.Order.Archimedean.Basic
import Mathlib.Algebra.Order.Field.Basic
import Mathlib.Tactic.FieldSimp

/-!
# Self-similar transformations have no periodic points

If a first return map of `A` to a proper right hand sub-interval is, up to a scaling, `A` itself (or its inverse), then the
points of the smallest period are mapped into each other by the scaling.  The scaling moves them away from the right end point
until they leave the interval.
-/

namespace Verif

set_option linter.unusedSectionVars false

section iter

variable {P : Type} {R : P → P → Prop}

theorem Iter.trans : ∀ {m n : ℕ} {x y z : P}, Iter R m x y → Iter R n y z → Iter R (m + n) x z
  | 0, n, x, y, z, h, h' => by cases h; rw [Nat.zero_add]; exact h'
  | m + 1, n, x, y, z, ⟨w, h1, h2⟩, h' => by
    rw [Nat.add_right_comm]
    exact ⟨w, h1, h2.trans h'⟩

theorem iter_of_reflTransGen {x y : P} (h : Relation.ReflTransGen R x y) : ∃ n, Iter R n x y := by
  induction h with
  | refl => exact ⟨0, rfl⟩
  | tail _ h ih =>
    obtain ⟨n, hn⟩ := ih
    exact ⟨n + 1, hn.trans (n := 1) ⟨_, h, rfl⟩⟩

theorem iter_of_transGen {x y : P} (h : Relation.TransGen R x y) : ∃ n, 1 ≤ n ∧ Iter R n x y := by
  obtain ⟨z, h1, h2⟩ := (Relation.TransGen.head'_iff).mp h
  obtain ⟨n, hn⟩ := iter_of_reflTransGen h2
  exact ⟨n + 1, by omega, z, h1, hn⟩

theorem Iter.unique (hR : ∀ x y z, R x y → R x z → y = z) : ∀ {n : ℕ} {x y z : P}, Iter R n x y → Iter R n x z → y = z
  | 0, _, _, _, h, h' => by cases h; cases h'; rfl
  | _ + 1, _, _, _, ⟨u, h1, h2⟩, ⟨v, h3, h4⟩ => by
    cases hR _ _ _ h1 h3
    exact h2.unique hR h4

theorem Iter.flip {R' : P → P → Prop} (hR : ∀ x y, R x y → R' y x) : ∀ {n : ℕ} {x y : P}, Iter R n x y → Iter R' n y x
  | 0, _, _, h => by cases h; rfl
  | n + 1, _, _, ⟨_, h1, h2⟩ => (h2.flip hR).trans (n := 1) ⟨_, hR _ _ h1, rfl⟩

theorem Iter.map {Q : Type} {R' : Q → Q → Prop} (f : P → Q) (hf : ∀ x y, R x y → R' (f x) (f y)) :
    ∀ {n : ℕ} {x y : P}, Iter R n x y → Iter R' n (f x) (f y)
  | 0, _, _, h => by cases h; rfl
  | _ + 1, _, _, ⟨_, h1, h2⟩ => ⟨_, hf _ _ h1, h2.map f hf⟩

/-- An orbit of finite length that ends in `S` returns to `S` at most as often as its length, and less often if it starts outside of `S`. -/
theorem Iter.firstReturn {S : P → Prop} : ∀ (n : ℕ) {x y : P}, Iter R n x y → S y → 1 ≤ n →
    ∃ k, 1 ≤ k ∧ k ≤ n ∧ Iter (FirstReturn R S) k x y ∧ (k = n → ∀ m z, m ≤ n → 1 ≤ m → (∀ x y z, R x y → R x z → y = z) → Iter R m x z → S z)
  | 0, _, _, _, _, h => by omega
  | 1, x, y, ⟨z, h1, h2⟩, hy, _ => by
    cases h2
    refine ⟨1, le_refl _, le_refl _, ⟨_, .now h1 hy, rfl⟩, ?_⟩
    intro _ m w hm1 hm2 hR hw
    have : m = 1 := by omega
    subst this
    obtain ⟨w', g1, g2⟩ := hw
    cases g2
    rw [hR _ _ _ g1 h1]; exact hy
  | n + 2, x, y, ⟨z, h1, h2⟩, hy, _ => by
    obtain ⟨k, k1, k2, k3, k4⟩ := Iter.firstReturn (n + 1) h2 hy (by omega)
    by_cases hz : S z
    · refine ⟨k + 1, by omega, by omega, ⟨z, .now h1 hz, k3⟩, ?_⟩
      intro hk m w hm1 hm2 hR hw
      obtain ⟨m, rfl⟩ : ∃ m', m = m' + 1 := ⟨m - 1, by omega⟩
      obtain ⟨w', g1, g2⟩ := hw
      cases hR _ _ _ h1 g1
      cases m with
      | zero => cases g2; exact hz
      | succ m => exact k4 (by omega) (m + 1) w (by omega) (by omega) hR g2
    · obtain ⟨k, rfl⟩ : ∃ k', k = k' + 1 := ⟨k - 1, by omega⟩
      obtain ⟨u, g1, g2⟩ := k3
      exact ⟨k + 1, by omega, by omega, ⟨u, .later h1 hz g1, g2⟩, fun h => by omega⟩

end iter

section

variable {P : Type} [Field P] [LinearOrder P] [IsStrictOrderedRing P]

theorem sumLen_mul (lam : P) (len len' : Label → P) : ∀ (l : List Label), (∀ a ∈ l, len' a = lam * len a) →
    sumLen len' l = lam * sumLen len l
  | [], _ => by simp
  | a :: l, h => by
    rw [sumLen_cons, sumLen_cons, h a (by simp), sumLen_mul lam len len' l (fun b hb => h b (by simp [hb])), mul_add]

theorem off_mul (lam : P) (len len' : Label → P) (a : Label) : ∀ (l : List Label), (∀ b ∈ l, len' b = lam * len b) →
    off len' l a = lam * off len l a
  | [], _ => by simp [off]
  | b :: l, h => by
    by_cases hb : b = a
    · subst hb; rw [off_cons_self, off_cons_self, mul_zero]
    · rw [off_cons_ne _ hb, off_cons_ne _ hb, h b (by simp), off_mul lam len len' a l (fun b hb => h b (by simp [hb])), mul_add]

/-- A transformation with proportional lengths is the same map in another scale. -/
theorem AIET.Valid.maps_mul {X A : AIET P} (hX : X.Valid) {lam : P} (hl : 0 < lam) (ht : A.top = X.top) (hb : A.bottom = X.bottom)
    (hlen : ∀ a ∈ X.top, A.len a = lam * X.len a) {x y : P} (h : X.Maps x y) : A.Maps (lam * x) (lam * y) := by
  obtain ⟨a, ha, h1, h2, rfl⟩ := h
  refine ⟨a, by rw [ht]; exact ha, ?_⟩
  rw [ht, hb, off_mul lam X.len A.len a X.top hlen, off_mul lam X.len A.len a X.bottom (fun b hb => hlen b (hX.perm.mem_iff.mp hb)), hlen a ha]
  refine ⟨mul_le_mul_of_nonneg_left h1 hl.le, ?_, by ring⟩
  rw [← mul_add]
  exact mul_lt_mul_of_pos_left h2 hl

/-- The points of the smallest period of `A` form an invariant set of the first return map `B`, with the same period. -/
theorem Fwd.smallest_period {A B : AIET P} {δ : P} (h : Fwd A δ B) {m : ℕ} (hm : 1 ≤ m)
    (hmin : ∀ k x, 1 ≤ k → Iter B.Maps k x x → m ≤ k) {x : P} (hx : Iter A.Maps m x x) :
    δ ≤ x ∧ Iter B.Maps m (x - δ) (x - δ) := by
  have key : ∀ k u v, Iter (FirstReturn A.Maps (fun z => δ ≤ z)) k u v → δ ≤ u → u < A.total → Iter B.Maps k (u - δ) (v - δ) := by
    intro k
    induction k with
    | zero => intro u v h1 _ _; cases h1; rfl
    | succ k ih =>
      rintro u v ⟨w, h1, h2⟩ h3 h4
      have ht := h.total_eq
      refine ⟨w - δ, (h.isReturnMap.maps_iff _ _ (by linarith) (by linarith)).mpr (by rwa [sub_add_cancel, sub_add_cancel]), ih w v h2 h1.mem ?_⟩
      obtain ⟨w', _, hw'⟩ := (Relation.TransGen.tail'_iff).mp h1.transGen
      exact (h.valid.maps_range hw').2
  obtain ⟨m', rfl⟩ : ∃ m', m = m' + 1 := ⟨m - 1, by omega⟩
  obtain ⟨x', hx1, hx2⟩ := hx
  have hx : Iter A.Maps (m' + 1) x x := ⟨x', hx1, hx2⟩
  have hd := h.valid.maps_dom hx1
  -- multiples of the period
  have hmul : ∀ i, Iter A.Maps (i * (m' + 1)) x x := by
    intro i
    induction i with
    | zero => rw [Nat.zero_mul]; exact rfl
    | succ i ih => rw [Nat.succ_mul]; exact ih.trans hx
  obtain ⟨y, hy, hδ⟩ := h.hits x hd.1 hd.2
  obtain ⟨j, hj⟩ := iter_of_reflTransGen hy
  -- the orbit reaches `y` in `j` steps and then returns to `x`
  have hsplit : ∀ (a b : ℕ) {u v : P}, Iter A.Maps (a + b) u v → ∃ w, Iter A.Maps a u w ∧ Iter A.Maps b w v := by
    intro a
    induction a with
    | zero => intro b u v h; rw [Nat.zero_add] at h; exact ⟨u, rfl, h⟩
    | succ a ih =>
      intro b u v h
      rw [Nat.add_right_comm] at h
      obtain ⟨w, h1, h2⟩ := h
      obtain ⟨w', h3, h4⟩ := ih b h2
      exact ⟨w', ⟨w, h1, h3⟩, h4⟩
  obtain ⟨r, hr⟩ : ∃ r, j + r = j * (m' + 1) := ⟨j * (m' + 1) - j, by have := Nat.le_mul_of_pos_right j (show 0 < m' + 1 by omega); omega⟩
  obtain ⟨w, hw1, hw2⟩ := hsplit j r (hr ▸ hmul j)
  cases hw1.unique h.valid.maps_fun hj
  -- period of `y`
  have hyy : Iter A.Maps (m' + 1) y y := by
    have h1 : Iter A.Maps (j + (m' + 1)) x y := by rw [Nat.add_comm]; exact hx.trans hj
    obtain ⟨y', h2, h3⟩ := hsplit j (m' + 1) h1
    cases h2.unique h.valid.maps_fun hj
    exact h3
  have hyd : y < A.total := by
    obtain ⟨_, h1, _⟩ := hyy
    exact (h.valid.maps_dom h1).2
  obtain ⟨k, k1, k2, k3, k4⟩ := Iter.firstReturn (m' + 1) hyy hδ (by omega)
  have hk := hmin k _ k1 (key k y y k3 hδ hyd)
  have hk' : k = m' + 1 := by omega
  -- all the points of the orbit are in the sub-interval
  have hall : ∀ i z, Iter A.Maps i y z → δ ≤ z := by
    intro i
    induction i using Nat.strong_induction_on with
    | _ i ih =>
      intro z hz
      by_cases h0 : i = 0
      · subst h0; cases hz; exact hδ
      by_cases hi : i ≤ m' + 1
      · exact k4 hk' i z hi (by omega) h.valid.maps_fun hz
      · obtain ⟨i', rfl⟩ : ∃ i', i = (m' + 1) + i' := ⟨i - (m' + 1), by omega⟩
        obtain ⟨y', h1, h2⟩ := hsplit (m' + 1) i' hz
        cases h1.unique h.valid.maps_fun hyy
        exact ih i' (by omega) z h2
  have hxδ := hall r x hw2
  refine ⟨hxδ, ?_⟩
  obtain ⟨l, l1, l2, l3, _⟩ := Iter.firstReturn (m' + 1) hx hxδ (by omega)
  have hl := hmin l _ l1 (key l x x l3 hxδ hd.2)
  have : l = m' + 1 := by omega
  subst this
  exact key _ x x l3 hxδ hd.2

/-- A transformation that is similar to a first return map of itself, or to the inverse of that map, has no periodic points. -/
theorem Fwd.no_periodic_of_similar [Archimedean P] {A B X : AIET P} {δ : P} (h : Fwd A δ B) (hδ : 0 < δ) (hX : X = B ∨ X = B.inv)
    (ht : A.top = X.top) (hb : A.bottom = X.bottom) (hlen : ∀ a ∈ X.top, ∀ b ∈ X.top, A.len a * X.len b = A.len b * X.len a) :
    ¬ ∃ x, Periodic A.Maps x := by
  have hXv : X.Valid := by rcases hX with rfl | rfl; exacts [h.valid', h.valid'.inv]
  have hXt : X.total = B.total := by rcases hX with rfl | rfl; exacts [rfl, h.valid'.total_inv]
  have hXi : ∀ k x, Iter X.Maps k x x ↔ Iter B.Maps k x x := by
    intro k x
    rcases hX with rfl | rfl
    · exact Iff.rfl
    · exact ⟨fun h1 => h1.flip (fun _ _ => h.valid'.maps_inv.mp), fun h1 => h1.flip (fun _ _ => h.valid'.maps_inv.mpr)⟩
  have hXp := hXv.total_pos
  have hAp := h.valid.total_pos
  have htot := h.total_eq
  set lam : P := A.total / X.total with hlam
  have hlt : 1 < lam := by rw [hlam, lt_div_iff₀ hXp]; linarith
  have hl0 : 0 < lam := by linarith
  have hmul : ∀ a ∈ X.top, A.len a = lam * X.len a := by
    intro a ha
    have h1 : sumLen A.len X.top * X.len a = A.len a * sumLen X.len X.top := by
      have : ∀ l : List Label, (∀ b ∈ l, b ∈ X.top) → sumLen A.len l * X.len a = A.len a * sumLen X.len l := by
        intro l
        induction l with
        | nil => intro _; simp
        | cons b l ih =>
          intro hl
          rw [sumLen_cons, sumLen_cons, add_mul, mul_add, ih (fun c hc => hl c (by simp [hc])), hlen b (hl b (by simp)) a ha]
      exact this _ (fun _ h => h)
    have h2 : A.total = sumLen A.len X.top := by rw [← ht]; rfl
    have h3 : X.total = sumLen X.len X.top := rfl
    have hne : X.total ≠ 0 := hXp.ne'
    rw [hlam, h2, div_mul_eq_mul_div, eq_div_iff hne, h1, h3]
  rintro ⟨x, hx⟩
  have hex : ∃ m, 1 ≤ m ∧ ∃ x, Iter A.Maps m x x := by
    obtain ⟨n, hn, hx'⟩ := iter_of_transGen hx
    exact ⟨n, hn, x, hx'⟩
  classical
  have hm := Nat.find_spec hex
  have hmin := fun k => Nat.find_min' hex (m := k)
  set m := Nat.find hex
  obtain ⟨hm1, x₀, hx₀⟩ := hm
  have hup : ∀ k x, Iter X.Maps k x x → Iter A.Maps k (lam * x) (lam * x) := fun k x hk =>
    hk.map (fun z => lam * z) (fun _ _ => hXv.maps_mul hl0 ht hb hmul)
  have step : ∀ x, Iter A.Maps m x x → Iter A.Maps m (lam * (x - δ)) (lam * (x - δ)) := by
    intro x hx
    have := h.smallest_period hm1 (fun k y hk hy => hmin k ⟨hk, _, hup k y ((hXi k y).mpr hy)⟩) hx
    exact hup m _ ((hXi m _).mpr this.2)
  have hdom : ∀ x, Iter A.Maps m x x → 0 ≤ x ∧ x < A.total := by
    intro x hx
    obtain ⟨m', hm'⟩ : ∃ m', m = m' + 1 := ⟨m - 1, by omega⟩
    rw [hm'] at hx
    obtain ⟨_, h1, _⟩ := hx
    exact h.valid.maps_dom h1
  have hAl : A.total = lam * X.total := by rw [hlam, div_mul_cancel₀ _ hXp.ne']
  have hpow : ∀ n : ℕ, ∃ y, Iter A.Maps m y y ∧ A.total - y = lam ^ n * (A.total - x₀) := by
    intro n
    induction n with
    | zero => exact ⟨x₀, hx₀, by rw [pow_zero, one_mul]⟩
    | succ n ih =>
      obtain ⟨y, h1, h2⟩ := ih
      refine ⟨lam * (y - δ), step y h1, ?_⟩
      rw [pow_succ', mul_assoc, ← h2]
      have : X.total = A.total - δ := by rw [hXt]; linarith
      rw [this] at hAl
      linear_combination hAl
  have hpos : 0 < A.total - x₀ := by linarith [(hdom x₀ hx₀).2]
  obtain ⟨n, hn⟩ := pow_unbounded_of_one_lt (A.total / (A.total - x₀)) hlt
  obtain ⟨y, h1, h2⟩ := hpow n
  rw [div_lt_iff₀ hpos, ← h2] at hn
  linarith [(hdom y h1).1]

end

end Verif
