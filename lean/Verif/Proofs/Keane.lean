import Verif.Proofs.Shrink

/-!
# Orbits between end points of intervals

If an orbit connects a left end point of a bottom interval to the left end point of a top interval then this is so after a step of Rauzy induction as
well, so Rauzy induction cannot go on forever.  Without such orbits there are no periodic points.
-/

namespace Verif

set_option linter.unusedSectionVars false

variable {T : Type} [CommRing T] [LinearOrder T] [IsStrictOrderedRing T]

theorem Iter.add {R : T → T → Prop} : ∀ {m n : ℕ} {x y z : T}, Iter R m x y → Iter R n y z → Iter R (m + n) x z
  | 0, n, x, y, z, h, h' => by rw [Nat.zero_add]; rw [show x = y from h]; exact h'
  | m + 1, n, x, y, z, h, h' => by
    obtain ⟨u, h1, h2⟩ := h
    rw [Nat.succ_add]
    exact ⟨u, h1, h2.add h'⟩

theorem Iter.reverse {R R' : T → T → Prop} (hR : ∀ x y, R x y → R' y x) : ∀ {n : ℕ} {x y : T}, Iter R n x y → Iter R' n y x
  | 0, _, _, h => (show _ = _ from h).symm
  | n + 1, x, y, h => by
    obtain ⟨u, h1, h2⟩ := h
    exact (h2.reverse hR).add (n := 1) ⟨x, hR _ _ h1, rfl⟩

theorem Iter.transGen_succ {R : T → T → Prop} : ∀ {n : ℕ} {x y : T}, Iter R (n + 1) x y → Relation.TransGen R x y
  | 0, x, y, ⟨u, h1, h2⟩ => by rw [← show u = y from h2]; exact .single h1
  | n + 1, x, y, ⟨u, h1, h2⟩ => .head h1 h2.transGen_succ

theorem exists_iter_succ {R : T → T → Prop} {x y : T} (h : Relation.TransGen R x y) : ∃ n, Iter R (n + 1) x y := by
  induction h with
  | single h => exact ⟨0, _, h, rfl⟩
  | tail _ h2 ih =>
    obtain ⟨n, hn⟩ := ih
    exact ⟨n + 1, hn.add (n := 1) ⟨_, h2, rfl⟩⟩

theorem FirstReturn.iter_between {R : T → T → Prop} {S : T → Prop} (hR : ∀ x y z, R x y → R x z → y = z) {x z : T} (h : FirstReturn R S x z) :
    ∀ {n : ℕ} {y : T}, Iter R (n + 1) x y → S y → ∃ k ≤ n, Iter R (k + 1) x z ∧ Iter R (n - k) z y := by
  induction h with
  | now h1 _ =>
    rintro n y ⟨u, hu, hn⟩ _
    rw [hR _ _ _ hu h1] at hn
    exact ⟨0, Nat.zero_le _, ⟨_, h1, rfl⟩, hn⟩
  | later h1 h2 _ ih =>
    rintro n y ⟨u, hu, hn⟩ hy
    rw [hR _ _ _ hu h1] at hn
    cases n with
    | zero => rw [show _ = _ from hn] at h2; exact absurd hy h2
    | succ n =>
      obtain ⟨k, hk, g1, g2⟩ := ih hn hy
      exact ⟨k + 1, by omega, ⟨_, h1, g1⟩, by rw [Nat.succ_sub_succ]; exact g2⟩

/-- The point `x` is on the orbit that gets from `e` to `d` in `n` steps. -/
def Between (A : AIET T) (n : ℕ) (e d x : T) : Prop := ∃ i j, i + j = n ∧ Iter A.Maps i e x ∧ Iter A.Maps j x d

theorem Between.prepend {A : AIET T} {k n : ℕ} {x z y u : T} (h : Iter A.Maps k x z) (hb : Between A n z y u) : Between A (k + n) x y u := by
  obtain ⟨i, j, hij, h1, h2⟩ := hb
  exact ⟨k + i, j, by omega, h.add h1, h2⟩

/-- The orbit of the first return map is part of the orbit. -/
theorem Fwd.between {A B : AIET T} {δ : T} (h : Fwd A δ B) : ∀ (n : ℕ) {x y : T}, Iter A.Maps n x y → δ ≤ x → δ ≤ y → x < A.total →
    ∃ n', Iter B.Maps n' (x - δ) (y - δ) ∧ ∀ u, Between B n' (x - δ) (y - δ) u → Between A n x y (u + δ) := by
  intro n
  induction n using Nat.strong_induction_on with
  | _ n ih =>
    intro x y hn hx hy hxt
    cases n with
    | zero =>
      have e : x = y := hn
      subst e
      refine ⟨0, rfl, ?_⟩
      rintro u ⟨i, j, hij, h1, -⟩
      obtain ⟨rfl, rfl⟩ : i = 0 ∧ j = 0 := by omega
      have : x - δ = u := h1
      rw [← this, sub_add_cancel]
      exact ⟨0, 0, rfl, rfl, rfl⟩
    | succ n =>
      have htot := h.total_eq
      obtain ⟨z, hz⟩ := h.valid'.maps_total (x := x - δ) (by linarith) (by linarith)
      have hfr := h.fwd _ _ hz
      rw [sub_add_cancel] at hfr
      obtain ⟨k, hk, h1, h2⟩ := hfr.iter_between h.valid.maps_fun hn hy
      have hzr := h.valid'.maps_range hz
      obtain ⟨n', g1, g2⟩ := ih (n - k) (by omega) h2 (by linarith) hy (by linarith)
      rw [add_sub_cancel_right] at g1 g2
      refine ⟨n' + 1, ⟨z, hz, g1⟩, ?_⟩
      rintro u ⟨i, j, hij, h3, h4⟩
      cases i with
      | zero =>
        have : x - δ = u := h3
        rw [← this, sub_add_cancel]
        exact ⟨0, n + 1, by omega, rfl, hn⟩
      | succ i =>
        obtain ⟨v, hv, h3⟩ := h3
        rw [h.valid'.maps_unique hv hz] at h3
        have := (g2 u ⟨i, j, by omega, h3, h4⟩).prepend h1
        rwa [show k + 1 + (n - k) = n + 1 by omega] at this

/-- The orbit of the left end point `e` of a bottom interval hits the left end point `d` of a top interval after `n` steps; both of them are
inside of the interval. -/
structure Joined (A : AIET T) (n : ℕ) (e d : T) : Prop where
  bottom : ∃ b ∈ A.bottom, e = off A.len A.bottom b
  top : ∃ t ∈ A.top, d = off A.len A.top t
  e_pos : 0 < e
  d_pos : 0 < d
  iter : Iter A.Maps n e d

theorem Joined.inv {A : AIET T} (hA : A.Valid) {n : ℕ} {e d : T} (h : Joined A n e d) : Joined A.inv n d e :=
  ⟨h.top, h.bottom, h.d_pos, h.e_pos, h.iter.reverse (fun _ _ => hA.maps_inv.mpr)⟩

theorem Between.inv {A : AIET T} (hA : A.Valid) {n : ℕ} {e d x : T} (h : Between A n e d x) : Between A.inv n d e x := by
  obtain ⟨i, j, hij, h1, h2⟩ := h
  exact ⟨j, i, by omega, h2.reverse (fun _ _ => hA.maps_inv.mpr), h1.reverse (fun _ _ => hA.maps_inv.mpr)⟩

theorem RauzyTop.joined {A B : AIET T} (hA : A.Valid) (h : RauzyTop A B) {n : ℕ} {e d : T} (hj : Joined A n e d) :
    ∃ δ, Fwd A δ B ∧ ∃ n' e' d', Joined B n' e' d' ∧ ∀ u, Between B n' e' d' u → Between A n e d (u + δ) := by
  cases h with
  | mk a b t l₁ l₂ len hlt =>
    have hs := hA.split
    have hpb : 0 < len b := hA.pos b (by simp [hs.b_t])
    have hpos : ∀ c ∈ l₁, 0 < len c := fun c hc => hA.pos_bottom c (by simp [hc])
    have hpos₂ : ∀ c ∈ l₂, 0 < len c := fun c hc => hA.pos_bottom c (by simp [hc])
    have hF : Fwd (⟨a :: t, b :: (l₁ ++ a :: l₂), len⟩ : AIET T) (len b) ⟨a :: t, l₁ ++ b :: a :: l₂, shorten len a (len b)⟩ := by
      obtain ⟨b', -, hF⟩ := RauzyTop.fwd hA (.mk a b t l₁ l₂ len hlt)
      have h1 := hF.total_eq
      have h2 : (⟨a :: t, l₁ ++ b :: a :: l₂, shorten len a (len b)⟩ : AIET T).total + len b = (⟨a :: t, b :: (l₁ ++ a :: l₂), len⟩ : AIET T).total := by
        unfold AIET.total
        simp only [sumLen]
        rw [shorten_eq, sumLen_congr (shorten_congr len (len b) hs.a_t)]
        ring
      have h3 : len b' = len b := by
        simp only at h1
        linarith
      simp only [h3] at hF
      exact hF
    refine ⟨len b, hF, ?_⟩
    set A : AIET T := ⟨a :: t, b :: (l₁ ++ a :: l₂), len⟩ with hAdef
    set B : AIET T := ⟨a :: t, l₁ ++ b :: a :: l₂, shorten len a (len b)⟩ with hBdef
    obtain ⟨⟨cb, hcb, he⟩, ⟨ct, hct, hd⟩, e0, d0, hit⟩ := hj
    simp only [hAdef] at hcb hct he hd
    -- the end point on top
    have hcta : ct ≠ a := by
      rintro rfl
      rw [off_cons_self] at hd
      exact absurd d0 (by rw [hd]; exact lt_irrefl _)
    have hctt : ct ∈ t := by simpa [hcta] using hct
    have hdle : len a ≤ d := by
      rw [hd, hs.off_t _ hctt]
      have := off_nonneg (fun c hc => hA.pos c (by simp [hAdef, hc])) ct (l := t) (len := len)
      linarith
    have htop : ∃ t ∈ B.top, d - len b = off B.len B.top t := by
      refine ⟨ct, hct, ?_⟩
      simp only [hBdef]
      rw [hs.off_t _ hctt, shorten_eq, off_congr (shorten_congr len (len b) hs.a_t), hd, hs.off_t _ hctt]
      ring
    have ha' : off B.len B.bottom a = sumLen len l₁ + len b := by
      simp only [hBdef]
      rw [hs.off'_a, sumLen_congr (shorten_congr len (len b) hs.a_l₁)]
      rw [shorten_congr len (len b) (l := [b]) (by simpa using hs.b_a.symm) b (by simp)]
    have hdlt : e < A.total := by
      have := off_add_le (len := len) (l := b :: (l₁ ++ a :: l₂)) hA.pos_bottom hcb
      have h2 := hA.pos_bottom cb hcb
      have h3 : sumLen len (b :: (l₁ ++ a :: l₂)) = A.total := hA.total_inv
      simp only [hAdef] at h2
      rw [he]
      linarith
    -- the end point at the bottom
    have hbot : ∃ c ∈ B.bottom, e - len b = off B.len B.bottom c := by
      have hcb' : cb ≠ b := by
        rintro rfl
        rw [off_cons_self] at he
        exact absurd e0 (by rw [he]; exact lt_irrefl _)
      have hcb : cb ∈ l₁ ∨ cb = a ∨ cb ∈ l₂ := by simpa [hcb'] using hcb
      rcases hcb with h | h | h
      · refine ⟨cb, by simp [hBdef, h], ?_⟩
        simp only [hBdef]
        rw [he, hs.off_l₁ _ h, hs.off'_l₁ _ h, off_congr (shorten_congr len (len b) hs.a_l₁)]
        ring
      · subst h
        refine ⟨b, by simp [hBdef], ?_⟩
        simp only [hBdef]
        rw [he, hs.off_a, hs.off'_b, sumLen_congr (shorten_congr len (len b) hs.a_l₁)]
        ring
      · have hcl : cb ∉ l₁ := fun h' => hs.disj _ h' h
        refine ⟨cb, by simp [hBdef, h], ?_⟩
        simp only [hBdef]
        rw [he, hs.off_l₂ _ hcl h, hs.off'_l₂ _ hcl h, sumLen_congr (shorten_congr len (len b) hs.a_l₁), shorten_eq,
          off_congr (shorten_congr len (len b) hs.a_l₂), shorten_congr len (len b) (l := [b]) (by simpa using hs.b_a.symm) b (by simp)]
        ring
    have hele : len b ≤ e := by
      obtain ⟨c, hc, h1⟩ := hbot
      have := off_nonneg (hF.valid'.pos_bottom) c (l := B.bottom) (len := B.len)
      linarith
    rcases hele.lt_or_eq with hlt' | heq
    · obtain ⟨n', g1, g2⟩ := hF.between n hit hele (by linarith) hdlt
      exact ⟨n', e - len b, d - len b, ⟨hbot, htop, by linarith, by linarith, g1⟩, g2⟩
    · cases n with
      | zero =>
        exfalso
        have : e = d := hit
        linarith
      | succ n =>
        obtain ⟨u, hu, hit'⟩ := hit
        have hmap : A.Maps e (sumLen len l₁ + len b + len b) := by
          refine ⟨a, by simp [hAdef], ?_, ?_, ?_⟩
          · simp only [hAdef]; rw [off_cons_self]; exact e0.le
          · simp only [hAdef]; rw [off_cons_self]; linarith
          · simp only [hAdef]; rw [off_cons_self, hs.off_a, ← heq]; ring
        have hu' := hA.maps_unique hu hmap
        subst hu'
        have h0 := sumLen_nonneg hpos
        have hrange := hA.maps_range hmap
        obtain ⟨n', g1, g2⟩ := hF.between n hit' (by linarith) (by linarith) hrange.2
        refine ⟨n', sumLen len l₁ + len b + len b - len b, d - len b, ⟨⟨a, by simp [hBdef], ?_⟩, htop, by linarith, by linarith, g1⟩, ?_⟩
        · rw [ha']; ring
        · intro v hv
          have := (g2 v hv).prepend (k := 1) ⟨_, hu, rfl⟩
          rwa [Nat.add_comm 1 n] at this

theorem RauzyStep.joined {A B : AIET T} (hA : A.Valid) (h : RauzyStep A B) {n : ℕ} {e d : T} (hj : Joined A n e d) :
    ∃ δ, Fwd A δ B ∧ ∃ n' e' d', Joined B n' e' d' ∧ ∀ u, Between B n' e' d' u → Between A n e d (u + δ) := by
  rcases h with h | h
  · exact h.joined hA hj
  · obtain ⟨δ, hF, n', e', d', h1, h2⟩ := h.joined hA.inv (hj.inv hA)
    have hB : B.inv.Valid := hF.valid'
    refine ⟨δ, hF.of_inv, n', d', e', ?_, ?_⟩
    · have := h1.inv hB; rwa [AIET.inv_inv] at this
    · intro u hu
      have hB' : B.Valid := hF.of_inv.valid'
      have := (h2 u (hu.inv hB')).inv hA.inv
      rwa [AIET.inv_inv] at this

variable {E : ℕ → AIET T}

theorem RauzyPath.joined (h : RauzyPath E) {n : ℕ} {e d : T} (hj : Joined (E 0) n e d) :
    ∀ m, ∃ δ, (E m).total + δ = (E 0).total ∧ ∃ n' e' d', Joined (E m) n' e' d' ∧ ∀ u, Between (E m) n' e' d' u → Between (E 0) n e d (u + δ) := by
  intro m
  induction m with
  | zero => exact ⟨0, add_zero _, n, e, d, hj, fun u hu => by rwa [add_zero]⟩
  | succ m ih =>
    obtain ⟨δ, h1, n', e', d', h2, h3⟩ := ih
    obtain ⟨δ', hF, n'', e'', d'', h4, h5⟩ := (h.step m).joined (h.valid' m) h2
    refine ⟨δ' + δ, ?_, n'', e'', d'', h4, fun u hu => ?_⟩
    · have := hF.total_eq; linarith
    · rw [← add_assoc]; exact h3 _ (h5 u hu)

/-- An orbit has a largest point. -/
theorem between_lt {A : AIET T} (hA : A.Valid) {d : T} : ∀ (n : ℕ) {e : T}, Iter A.Maps n e d → 0 ≤ e → e < A.total →
    ∃ x, x < A.total ∧ ∀ u, Between A n e d u → u ≤ x
  | 0, e, _, _, h1 => by
    refine ⟨e, h1, ?_⟩
    rintro u ⟨i, j, hij, h2, -⟩
    obtain ⟨rfl, rfl⟩ : i = 0 ∧ j = 0 := by omega
    exact le_of_eq (show e = u from h2).symm
  | n + 1, e, ⟨z, hz, hn⟩, h0, h1 => by
    have hr := hA.maps_range hz
    obtain ⟨x, hx, hu⟩ := between_lt hA n hn hr.1 hr.2
    refine ⟨max e x, max_lt h1 hx, ?_⟩
    rintro u ⟨i, j, hij, h2, h3⟩
    cases i with
    | zero => rw [← show e = u from h2]; exact le_max_left _ _
    | succ i =>
      obtain ⟨v, hv, h2⟩ := h2
      rw [hA.maps_unique hv hz] at h2
      exact le_trans (hu u ⟨i, j, by omega, h2, h3⟩) (le_max_right _ _)

/-- **Rauzy induction that goes on forever only exists when there is no orbit between end points.** -/
theorem RauzyPath.not_joined [Archimedean T] (h : RauzyPath E) (hirr : Often (fun m => (E m).Irreducible)) {n : ℕ} {e d : T} : ¬ Joined (E 0) n e d := by
  intro hj
  have hlt : e < (E 0).total := by
    obtain ⟨b, hb, rfl⟩ := hj.bottom
    have h1 := off_add_le (len := (E 0).len) (l := (E 0).bottom) h.valid.pos_bottom hb
    have h2 := h.valid.pos_bottom b hb
    have h3 : sumLen (E 0).len (E 0).bottom = (E 0).total := h.valid.total_inv
    linarith
  obtain ⟨x, hx, hu⟩ := between_lt h.valid n hj.iter hj.e_pos.le hlt
  obtain ⟨m, hm⟩ := h.shrinks hirr (η := (E 0).total - x) (by linarith)
  obtain ⟨δ, h1, n', e', d', h2, h3⟩ := h.joined hj m
  have h4 := hu _ (h3 e' ⟨0, n', by omega, rfl, h2.iter⟩)
  have h5 := hm m (le_refl _)
  have h6 := h2.e_pos
  linarith

/-- Sliding an orbit to the left until it hits the left end point of an interval. -/
theorem Iter.slide {A : AIET T} : ∀ (n : ℕ) {x y : T}, Iter A.Maps (n + 1) x y → ∃ α, 0 ≤ α ∧
    (∀ β, 0 ≤ β → β ≤ α → Iter A.Maps (n + 1) (x - β) (y - β)) ∧
    ∃ i ≤ n, ∃ t ∈ A.top, Iter A.Maps i (x - α) (off A.len A.top t) ∧ Iter A.Maps (n + 1 - i) (off A.len A.top t) (y - α) := by
  have hmap : ∀ {x y : T}, A.Maps x y → ∃ t ∈ A.top, off A.len A.top t ≤ x ∧ ∀ β, 0 ≤ β → β ≤ x - off A.len A.top t → A.Maps (x - β) (y - β) := by
    rintro x y ⟨t, ht, h1, h2, rfl⟩
    exact ⟨t, ht, h1, fun β hβ hβ' => ⟨t, ht, by linarith, by linarith, by ring⟩⟩
  intro n
  induction n with
  | zero =>
    rintro x y ⟨z, hz, hzy⟩
    have hzy : z = y := hzy
    subst hzy
    obtain ⟨t, ht, h1, h2⟩ := hmap hz
    refine ⟨x - off A.len A.top t, by linarith, fun β hβ hβ' => ⟨_, h2 β hβ hβ', rfl⟩, 0, le_refl _, t, ht, ?_, ?_⟩
    · show x - (x - off A.len A.top t) = _; ring
    · have := h2 _ (by linarith) (le_refl (x - off A.len A.top t))
      rw [sub_sub_cancel] at this
      exact ⟨_, this, rfl⟩
  | succ n ih =>
    rintro x y ⟨z, hz, hzy⟩
    obtain ⟨t, ht, h1, h2⟩ := hmap hz
    obtain ⟨α, a0, a1, i, hi, t', ht', a2, a3⟩ := ih hzy
    rcases le_total (x - off A.len A.top t) α with hle | hle
    · refine ⟨x - off A.len A.top t, by linarith, fun β hβ hβ' => ⟨_, h2 β hβ hβ', a1 β hβ (by linarith)⟩, 0, Nat.zero_le _, t, ht, ?_, ?_⟩
      · show x - (x - off A.len A.top t) = _; ring
      · have := h2 _ (by linarith) (le_refl (x - off A.len A.top t))
        rw [sub_sub_cancel] at this
        exact ⟨_, this, a1 _ (by linarith) hle⟩
    · refine ⟨α, a0, fun β hβ hβ' => ⟨_, h2 β hβ (by linarith), a1 β hβ hβ'⟩, i + 1, by omega, t', ht', ⟨_, h2 α a0 hle, a2⟩, ?_⟩
      rw [show n + 1 + 1 - (i + 1) = n + 1 - i by omega]
      exact a3

theorem AIET.Valid.off_pos {A : AIET T} (hA : A.Valid) {h a : Label} (hh : A.top.head? = some h) (ha : a ∈ A.top) (hne : a ≠ h) : 0 < off A.len A.top a := by
  obtain ⟨top, bot, len⟩ := A
  cases top with
  | nil => cases hh
  | cons b s =>
    simp only [List.head?_cons, Option.some.injEq] at hh
    subst hh
    have h1 := hA.pos b (by simp)
    have h2 := off_nonneg (len := len) (l := s) (fun c hc => hA.pos c (by simp [hc])) a
    simp only [off, if_neg (Ne.symm hne)]
    simp only at h1
    linarith

theorem AIET.off_head {A : AIET T} {h : Label} (hh : A.top.head? = some h) : off A.len A.top h = 0 := by
  obtain ⟨top, bot, len⟩ := A
  cases top with
  | nil => cases hh
  | cons b s =>
    simp only [List.head?_cons, Option.some.injEq] at hh
    subst hh
    exact off_cons_self _ _ _

/-- The image of the left end point of an interval. -/
theorem AIET.Valid.maps_off {A : AIET T} (hA : A.Valid) {a : Label} (ha : a ∈ A.top) : A.Maps (off A.len A.top a) (off A.len A.bottom a) :=
  ⟨a, ha, le_refl _, by have := hA.pos a ha; linarith, by ring⟩

/-- **Without orbits between end points, there are no periodic points.** -/
theorem no_periodic_of_not_joined {A : AIET T} (hA : A.Valid) {t b : Label} (ht : A.top.head? = some t) (hb : A.bottom.head? = some b) (hne : t ≠ b)
    (hj : ∀ n e d, ¬ Joined A n e d) (x : T) : ¬ Periodic A.Maps x := by
  intro hx
  obtain ⟨n, hn⟩ := exists_iter_succ hx
  obtain ⟨α, -, -, i, hi, a, ha, h1, h2⟩ := hn.slide
  -- the end point is periodic
  have hper : Iter A.Maps (n + 1) (off A.len A.top a) (off A.len A.top a) := by
    have := h2.add h1
    rwa [show n + 1 - i + i = n + 1 by omega] at this
  obtain ⟨z, hz, hn'⟩ := hper
  have hz' := hA.maps_unique hz (hA.maps_off ha)
  subst hz'
  have hat : t ∈ A.top := List.mem_of_head? ht
  have hbb : b ∈ A.bottom := List.mem_of_head? hb
  have hbt : b ∈ A.top := hA.perm.mem_iff.mp hbb
  have hoffb : off A.len A.bottom b = 0 := AIET.off_head (A := A.inv) hb
  have hofft : off A.len A.top t = 0 := AIET.off_head ht
  have hbpos : 0 < off A.len A.top b := hA.off_pos ht hbt (Ne.symm hne)
  have htpos : 0 < off A.len A.bottom t := AIET.Valid.off_pos hA.inv (A := A.inv) hb (hA.perm.mem_iff.mpr hat) hne
  by_cases hat' : a = t
  · subst hat'
    rw [hofft] at hn'
    -- the previous point is the left end point of the interval that is first at the bottom
    cases n with
    | zero => have : off A.len A.bottom a = 0 := hn'; linarith
    | succ n =>
      have hback : Iter A.Maps n (off A.len A.bottom a) (off A.len A.top b) := by
        have h3 := hn'.reverse (R' := A.inv.Maps) (fun _ _ => hA.maps_inv.mpr)
        obtain ⟨v, hv, h3⟩ := h3
        have hv' : v = off A.len A.top b := by
          refine hA.inv.maps_unique hv ?_
          have := AIET.Valid.maps_off hA.inv (A := A.inv) hbb
          simp only [AIET.inv] at this ⊢
          rwa [hoffb] at this
        subst hv'
        exact h3.reverse (R' := A.Maps) (fun _ _ => hA.maps_inv.mp)
      exact hj _ _ _ ⟨⟨a, hA.perm.mem_iff.mpr ha, rfl⟩, ⟨b, hbt, rfl⟩, htpos, hbpos, hback⟩
  · have hapos := hA.off_pos ht ha hat'
    by_cases hab : a = b
    · subst hab
      rw [hoffb] at hn'
      cases n with
      | zero => have : (0 : T) = off A.len A.top a := hn'; linarith
      | succ n =>
        obtain ⟨v, hv, h3⟩ := hn'
        have h4 := hA.maps_off hat
        rw [hofft] at h4
        rw [hA.maps_unique hv h4] at h3
        exact hj _ _ _ ⟨⟨t, hA.perm.mem_iff.mpr hat, rfl⟩, ⟨a, ha, rfl⟩, htpos, hapos, h3⟩
    · have hpos : 0 < off A.len A.bottom a := AIET.Valid.off_pos hA.inv (A := A.inv) hb (hA.perm.mem_iff.mpr ha) hab
      exact hj _ _ _ ⟨⟨a, hA.perm.mem_iff.mpr ha, rfl⟩, ⟨a, ha, rfl⟩, hpos, hapos, hn'⟩

end Verif
