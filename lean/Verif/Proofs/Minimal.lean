import Verif.Proofs.Unique
import Verif.SpecMinimal

/-!
# Interval exchange transformations without connections are minimal

When there are no orbits between end points, then Rauzy induction goes on forever, all lengths tend to zero and each interval wins and loses again and again.  So the
intervals that one goes through until one returns to a small interval get arbitrarily short, and one goes through all of them on the way.
-/

namespace Verif

set_option linter.unusedSectionVars false

variable {T : Type} [CommRing T] [LinearOrder T] [IsStrictOrderedRing T]

/-- The point is in the top interval. -/
def AIET.In (A : AIET T) (a : Label) (x : T) : Prop := a ∈ A.top ∧ off A.len A.top a ≤ x ∧ x < off A.len A.top a + A.len a

abbrev AIET.Reach (A : AIET T) : T → T → Prop := Relation.ReflTransGen A.Maps

/-- Where the intervals are before and after a step of the induction. -/
structure Shape (A B : AIET T) (w l : Label) : Prop where
  ne : w ≠ l
  mem_w : w ∈ A.top
  mem_l : l ∈ A.top
  mem : ∀ c, c ∈ B.top ↔ c ∈ A.top
  lt : A.len l < A.len w
  pos : 0 < A.len l
  len_w : B.len w = A.len w - A.len l
  len_other : ∀ c, c ≠ w → B.len c = A.len c
  off_other : ∀ c ∈ A.top, c ≠ w → c ≠ l → off B.len B.top c + A.len l = off A.len A.top c
  off_w : off B.len B.top w = off A.len A.top w
  side : (off A.len A.top w = 0 ∧ off A.len A.bottom l = 0 ∧ off B.len B.top l + A.len l = off A.len A.top l) ∨
    (off A.len A.top l = 0 ∧ off A.len A.bottom w = 0 ∧ off B.len B.top l + A.len l = off A.len A.top w)

theorem Beats.shape {A B : AIET T} (hA : A.Valid) (hB : B.Valid) {w l : Label} (h : Beats A B w l) : Shape A B w l := by
  have hmem : ∀ c, c ∈ B.top ↔ c ∈ A.top := by
    intro c
    rcases h.side with ⟨-, -, h3, -⟩ | ⟨-, -, h3, -⟩
    · rw [h3]
    · have h3 : B.bottom = A.bottom := h3
      rw [← hA.perm.mem_iff, ← hB.perm.mem_iff, h3]
  have hpw := hB.pos w ((hmem w).mpr h.mem_w)
  have hpl := hA.pos l h.mem_l
  have hlw : B.len w = A.len w - A.len l := by rw [h.len, shorten_eq]
  have hother : ∀ c, c ≠ w → B.len c = A.len c := fun c hc => by rw [h.len, shorten_ne _ _ hc]
  rcases h.side with ⟨h1, h2, h3, l₁, l₂, h4, h5⟩ | ⟨h1, h2, h3, l₁, l₂, h4, h5⟩
  · obtain ⟨top, bottom, len⟩ := A
    obtain ⟨top', bottom', len'⟩ := B
    have e := h.len
    simp only at h1 h2 h3 h4 h5 e
    subst h3 h4 h5
    obtain ⟨t, rfl⟩ : ∃ t, top' = w :: t := by
      cases top' with
      | nil => cases h1
      | cons a t => cases h1; exact ⟨t, rfl⟩
    have hs := hA.split
    have key : ∀ c ∈ t, off len' (w :: t) c + len l = off len (w :: t) c := by
      intro c hc
      rw [hs.off_t _ hc, hs.off_t _ hc, e, shorten_eq, off_congr (shorten_congr len (len l) hs.a_t)]
      ring
    refine ⟨h.ne, h.mem_w, h.mem_l, hmem, by simp only at hpw hlw ⊢; linarith, hpl, hlw, hother, ?_, ?_, .inl ⟨?_, ?_, ?_⟩⟩
    · intro c hc hcw _
      exact key c (by simpa [hcw] using hc)
    · simp only [off_cons_self]
    · simp only [off_cons_self]
    · simp only [off_cons_self]
    · exact key l hs.b_t
  · obtain ⟨top, bottom, len⟩ := A
    obtain ⟨top', bottom', len'⟩ := B
    have e := h.len
    simp only [AIET.inv] at h1 h2 h3 h4 h5 e
    subst h3 h4 h5
    obtain ⟨t, rfl⟩ : ∃ t, bottom' = w :: t := by
      cases bottom' with
      | nil => cases h1
      | cons a t => cases h1; exact ⟨t, rfl⟩
    have hs := AIET.Valid.split hA.inv
    have hl₁ := sumLen_congr (shorten_congr len (len l) hs.a_l₁)
    have hbb : shorten len w (len l) l = len l := shorten_ne _ _ h.ne.symm
    refine ⟨h.ne, h.mem_w, h.mem_l, hmem, by simp only at hpw hlw ⊢; linarith, hpl, hlw, hother, ?_, ?_, .inr ⟨?_, ?_, ?_⟩⟩
    · intro c hc hcw hcl
      simp only [List.mem_cons, List.mem_append, hcw, hcl, false_or] at hc
      simp only
      rcases hc with hc | hc
      · rw [hs.off_l₁ _ hc, hs.off'_l₁ _ hc, e, off_congr (shorten_congr len (len l) hs.a_l₁)]
        ring
      · have hcl : c ∉ l₁ := fun h' => hs.disj _ h' hc
        rw [hs.off_l₂ _ hcl hc, hs.off'_l₂ _ hcl hc, e, hl₁, shorten_eq, off_congr (shorten_congr len (len l) hs.a_l₂), hbb]
        ring
    · simp only
      rw [hs.off'_a, hs.off_a, e, hl₁, hbb]
      ring
    · simp only [off_cons_self]
    · simp only [off_cons_self]
    · simp only
      rw [hs.off'_b, hs.off_a, e, hl₁]
      ring

/-- The intervals after the step are parts of intervals before the step. -/
theorem Shape.visits {A B : AIET T} {w l : Label} (h : Shape A B w l) {b : Label} {y : T} (hy : B.In b y) :
    (∃ z, A.Reach (y + A.len l) z ∧ A.In b z) ∧ (b = l → ∃ z, A.Reach (y + A.len l) z ∧ A.In w z) := by
  obtain ⟨h1, h2, h3⟩ := hy
  have h1' := (h.mem b).mp h1
  have hlt := h.lt
  have hpos := h.pos
  by_cases hbw : b = w
  · subst hbw
    refine ⟨⟨_, .refl, h1', ?_, ?_⟩, fun e => absurd e h.ne⟩
    · rw [h.off_w] at h2; linarith
    · rw [h.off_w, h.len_w] at h3; linarith
  have hlen := h.len_other b hbw
  by_cases hbl : b = l
  · subst hbl
    rcases h.side with ⟨s1, s2, s3⟩ | ⟨s1, s2, s3⟩
    · have hin : A.In b (y + A.len b) := ⟨h1', by linarith, by linarith⟩
      refine ⟨⟨_, .refl, hin⟩, fun _ => ⟨_, .single ⟨b, hin.1, hin.2.1, hin.2.2, rfl⟩, h.mem_w, ?_, ?_⟩⟩ <;> linarith
    · have hin : A.In w (y + A.len b) := ⟨h.mem_w, by linarith, by linarith⟩
      refine ⟨⟨_, .single ⟨w, hin.1, hin.2.1, hin.2.2, rfl⟩, h1', ?_, ?_⟩, fun _ => ⟨_, .refl, hin⟩⟩ <;> linarith
  · have := h.off_other b h1' hbw hbl
    exact ⟨⟨_, .refl, h1', by linarith, by linarith⟩, fun e => absurd e hbl⟩

/-- Every point before the step is on the way of all points of some interval after the step, and all of them stay together until then. -/
theorem Shape.tower {A B : AIET T} {w l : Label} (h : Shape A B w l) (hA : A.Valid) {a : Label} {y : T} (hy : A.In a y) :
    ∃ b y₁, B.In b y₁ ∧ ∀ y', B.In b y' → A.Reach (y' + A.len l) (y + (y' - y₁)) ∧ A.In a (y + (y' - y₁)) := by
  obtain ⟨h1, h2, h3⟩ := hy
  have hlt := h.lt
  have hpos := h.pos
  have hlw := h.len_w
  have how := h.off_w
  have hll := h.len_other l h.ne.symm
  have hml := (h.mem l).mpr h.mem_l
  have hmw := (h.mem w).mpr h.mem_w
  by_cases haw : a = w
  · subst haw
    rcases h.side with ⟨s1, s2, s3⟩ | ⟨s1, s2, s3⟩
    · by_cases hy : y < A.len l
      · refine ⟨l, y + off B.len B.top l, ⟨hml, by linarith, by linarith⟩, ?_⟩
        rintro y' ⟨-, g2, g3⟩
        refine ⟨.single ⟨l, h.mem_l, by linarith, by linarith, by linarith⟩, h1, by linarith, by linarith⟩
      · have hy := not_lt.mp hy
        refine ⟨a, y - A.len l, ⟨hmw, by linarith, by linarith⟩, ?_⟩
        rintro y' ⟨-, g2, g3⟩
        have e : y + (y' - (y - A.len l)) = y' + A.len l := by ring
        rw [e]
        exact ⟨.refl, h1, by linarith, by linarith⟩
    · by_cases hy : y < off A.len A.top a + A.len l
      · refine ⟨l, y - A.len l, ⟨hml, by linarith, by linarith⟩, ?_⟩
        rintro y' ⟨-, g2, g3⟩
        have e : y + (y' - (y - A.len l)) = y' + A.len l := by ring
        rw [e]
        exact ⟨.refl, h1, by linarith, by linarith⟩
      · have hy := not_lt.mp hy
        refine ⟨a, y - A.len l, ⟨hmw, by linarith, by linarith⟩, ?_⟩
        rintro y' ⟨-, g2, g3⟩
        have e : y + (y' - (y - A.len l)) = y' + A.len l := by ring
        rw [e]
        exact ⟨.refl, h1, by linarith, by linarith⟩
  have hlen := h.len_other a haw
  have hma := (h.mem a).mpr h1
  by_cases hal : a = l
  · subst hal
    rcases h.side with ⟨s1, s2, s3⟩ | ⟨s1, s2, s3⟩
    · refine ⟨a, y - A.len a, ⟨hml, by linarith, by linarith⟩, ?_⟩
      rintro y' ⟨-, g2, g3⟩
      have e : y + (y' - (y - A.len a)) = y' + A.len a := by ring
      rw [e]
      exact ⟨.refl, h1, by linarith, by linarith⟩
    · refine ⟨a, y + off B.len B.top a, ⟨hml, by linarith, by linarith⟩, ?_⟩
      rintro y' ⟨-, g2, g3⟩
      refine ⟨.single ⟨w, h.mem_w, by linarith, by linarith, by linarith⟩, h1, by linarith, by linarith⟩
  · have := h.off_other a h1 haw hal
    refine ⟨a, y - A.len l, ⟨hma, by linarith, by linarith⟩, ?_⟩
    rintro y' ⟨-, g2, g3⟩
    have e : y + (y' - (y - A.len l)) = y' + A.len l := by ring
    rw [e]
    exact ⟨.refl, h1, by linarith, by linarith⟩

theorem FirstReturn.reach {R : T → T → Prop} {S : T → Prop} {x y : T} (h : FirstReturn R S x y) : Relation.ReflTransGen R x y := by
  induction h with
  | now h1 _ => exact .single h1
  | later h1 _ _ ih => exact .head h1 ih

theorem Fwd.reach {A B : AIET T} {δ : T} (h : Fwd A δ B) {x y : T} (hr : B.Reach x y) : A.Reach (x + δ) (y + δ) := by
  induction hr with
  | refl => exact .refl
  | tail _ h' ih => exact ih.trans (h.fwd _ _ h').reach

theorem AIET.Valid.exists_in {A : AIET T} (h : A.Valid) {x : T} (h0 : 0 ≤ x) (h1 : x < A.total) : ∃ a, A.In a x := by
  obtain ⟨y, a, h2, h3, h4, -⟩ := h.maps_total h0 h1
  exact ⟨a, h2, h3, h4⟩

/-! ### Paths -/

variable {E : ℕ → AIET T} {w l : ℕ → Label}

theorem Game.shape (h : Game E w l) (m : ℕ) : Shape (E m) (E (m + 1)) (w m) (l m) := (h.beats m).shape (h.path.valid' m) (h.path.valid' (m + 1))

theorem Game.shiftGame (h : Game E w l) (k : ℕ) : Game (fun m => E (m + k)) (fun m => w (m + k)) (fun m => l (m + k)) :=
  ⟨h.path.shift k, fun m => by have := h.beats (m + k); rwa [show m + k + 1 = m + 1 + k by omega] at this⟩

theorem Game.fwd (h : Game E w l) (n : ℕ) : Fwd (E 0) ((E 0).total - (E n).total) (E n) := by
  obtain ⟨δ, hδ⟩ := Steps.fwd h.path.valid (h.path.steps (Nat.zero_le n))
  have : (E 0).total - (E n).total = δ := by rw [← hδ.total_eq]; ring
  rw [this]
  exact hδ

theorem Game.tower (h : Game E w l) {z : T} (h0 : 0 ≤ z) (h1 : z < (E 0).total) (n : ℕ) :
    ∃ b y₁, (E n).In b y₁ ∧ ∀ y', (E n).In b y' → (E 0).Reach (y' + ((E 0).total - (E n).total)) (z + (y' - y₁)) := by
  induction n with
  | zero =>
    obtain ⟨b, hb⟩ := h.path.valid.exists_in h0 h1
    refine ⟨b, z, hb, fun y' _ => ?_⟩
    rw [sub_self, add_zero, add_sub_cancel]
  | succ n ih =>
    obtain ⟨a, y, h2, h3⟩ := ih
    obtain ⟨b, y₁, h4, h5⟩ := (h.shape n).tower (h.path.valid' n) h2
    refine ⟨b, y₁, h4, fun y' hy' => ?_⟩
    obtain ⟨h6, h7⟩ := h5 y' hy'
    have h8 := (h.fwd n).reach h6
    have h9 := h3 _ h7
    have e1 : y' + ((E 0).total - (E (n + 1)).total) = y' + (E n).len (l n) + ((E 0).total - (E n).total) := by
      have := (h.beats n).total
      linear_combination -this
    have e2 : z + (y' - y₁) = z + (y + (y' - y₁) - y) := by ring
    rw [e1, e2]
    exact h8.trans h9

/-- The orbits of all points of the interval `b` visit the original interval `a`. -/
def Visits (E : ℕ → AIET T) (a : Label) (n : ℕ) (b : Label) : Prop :=
  ∀ y, (E n).In b y → ∃ z, (E 0).Reach (y + ((E 0).total - (E n).total)) z ∧ (E 0).In a z

theorem Game.visits_succ (h : Game E w l) {a b : Label} {n : ℕ} (hv : Visits E a n b) :
    Visits E a (n + 1) b ∧ (b = w n → Visits E a (n + 1) (l n)) := by
  have key : ∀ {c y}, (∃ z, (E n).Reach (y + (E n).len (l n)) z ∧ (E n).In b z) → (E (n + 1)).In c y →
      ∃ z, (E 0).Reach (y + ((E 0).total - (E (n + 1)).total)) z ∧ (E 0).In a z := by
    rintro c y ⟨z, h1, h2⟩ -
    obtain ⟨z', h3, h4⟩ := hv z h2
    have e1 : y + ((E 0).total - (E (n + 1)).total) = y + (E n).len (l n) + ((E 0).total - (E n).total) := by
      have := (h.beats n).total
      linear_combination -this
    rw [e1]
    exact ⟨z', ((h.fwd n).reach h1).trans h3, h4⟩
  refine ⟨fun y hy => key ((h.shape n).visits hy).1 hy, ?_⟩
  rintro rfl y hy
  exact key (((h.shape n).visits hy).2 rfl) hy

theorem Game.visits_le (h : Game E w l) {a b : Label} {m n : ℕ} (hmn : m ≤ n) (hv : Visits E a m b) : Visits E a n b := by
  induction n, hmn using Nat.le_induction with
  | base => exact hv
  | succ n _ ih => exact (h.visits_succ ih).1

theorem visits_zero (E : ℕ → AIET T) (a : Label) : Visits E a 0 a := by
  intro y hy
  rw [sub_self, add_zero]
  exact ⟨y, .refl, hy⟩

/-- The interval that wins takes part in the next step. -/
theorem Game.persist (h : Game E w l) (n : ℕ) : w n = w (n + 1) ∨ w n = l (n + 1) := by
  have key : (E (n + 1)).top.head? = some (w n) ∨ (E (n + 1)).bottom.head? = some (w n) := by
    rcases (h.beats n).side with ⟨h1, -, h3, -⟩ | ⟨h1, -, h3, -⟩
    · left; rw [h3]; exact h1
    · right
      have h3 : (E (n + 1)).bottom = (E n).bottom := h3
      rw [h3]; exact h1
  rcases (h.beats (n + 1)).side with ⟨g1, g2, -⟩ | ⟨g1, g2, -⟩
  · rcases key with k | k
    · rw [g1] at k; exact .inl (Option.some.inj k).symm
    · rw [g2] at k; exact .inr (Option.some.inj k).symm
  · rcases key with k | k
    · have g2 : (E (n + 1)).top.head? = _ := g2
      rw [g2] at k; exact .inr (Option.some.inj k).symm
    · have g1 : (E (n + 1)).bottom.head? = _ := g1
      rw [g1] at k; exact .inl (Option.some.inj k).symm

theorem exists_common {p : ℕ → Label → Prop} (hmono : ∀ {m n a}, m ≤ n → p m a → p n a) : ∀ (s : List Label), (∀ a ∈ s, ∃ n, p n a) → ∃ n, ∀ a ∈ s, p n a
  | [], _ => ⟨0, by simp⟩
  | a :: s, h => by
    obtain ⟨n, hn⟩ := exists_common (p := p) hmono s (fun b hb => h b (by simp [hb]))
    obtain ⟨m, hm⟩ := h a (by simp)
    refine ⟨max m n, fun b hb => ?_⟩
    rcases List.mem_cons.mp hb with rfl | hb
    · exact hmono (le_max_left _ _) hm
    · exact hmono (le_max_right _ _) (hn b hb)

/-- Eventually, all intervals visit the original interval. -/
theorem Game.visits_all (h : Game E w l) (hwin : ∀ a ∈ (E 0).top, Often (fun m => w m = a)) {a : Label} (ha : a ∈ (E 0).top) :
    ∃ n, ∀ b ∈ (E 0).top, Visits E a n b := by
  refine exists_common (p := fun n b => Visits E a n b) (fun hmn hv => h.visits_le hmn hv) _ ?_
  by_contra hcon
  push Not at hcon
  obtain ⟨b₀, hb₀, hnever⟩ := hcon
  -- From some step on, the intervals that visit do not change.
  obtain ⟨N, hN⟩ : ∃ N, ∀ b ∈ (E 0).top, (∃ n, Visits E a n b) → Visits E a N b :=
    exists_common (p := fun n b => (∃ n, Visits E a n b) → Visits E a n b) (fun hmn hp he => h.visits_le hmn (hp he)) _ (fun b _ => by
      by_cases hb : ∃ n, Visits E a n b
      · obtain ⟨n, hn⟩ := hb
        exact ⟨n, fun _ => hn⟩
      · exact ⟨0, fun he => absurd he hb⟩)
  obtain ⟨n₀, hn₀, e₀⟩ := hwin b₀ hb₀ N
  obtain ⟨n₁, hn₁, e₁⟩ := hwin a ha n₀
  -- An interval that does not visit loses against an interval that visits.
  have hswitch : ∀ k, (∃ n, Visits E a n (w (n₀ + k))) → ∃ n, N ≤ n ∧ (¬ ∃ m, Visits E a m (w n)) ∧ ∃ m, Visits E a m (w (n + 1)) := by
    intro k
    induction k with
    | zero =>
      rintro ⟨n, hn⟩
      rw [add_zero, e₀] at hn
      exact absurd hn (hnever n)
    | succ k ih =>
      intro hk
      by_cases hk' : ∃ n, Visits E a n (w (n₀ + k))
      · exact ih hk'
      · exact ⟨n₀ + k, by omega, hk', hk⟩
  obtain ⟨n, hn, h1, h2⟩ := hswitch (n₁ - n₀) ⟨0, by rw [show n₀ + (n₁ - n₀) = n₁ by omega, e₁]; exact visits_zero E a⟩
  have h3 : Visits E a (n + 1) (w (n + 1)) := h.visits_le (by omega) (hN _ (h.path.mem.mp (h.beats (n + 1)).mem_w) h2)
  rcases h.persist n with e | e
  · exact h1 (e ▸ h2)
  · exact h1 ⟨_, e ▸ (h.visits_succ h3).2 rfl⟩

variable [Archimedean T]

/-- Every orbit gets arbitrarily close to every point. -/
theorem Game.dense (h : Game E w l) (hirr : Often (fun m => (E m).Irreducible)) {x z η : T} (hx : 0 ≤ x) (hx' : x < (E 0).total)
    (hz : 0 ≤ z) (hz' : z < (E 0).total) (hη : 0 < η) : ∃ y, (E 0).Reach x y ∧ z - η < y ∧ y < z + η := by
  have hlose := h.often hirr
  have hwin : ∀ a ∈ (E 0).top, Often (fun m => w m = a) := fun a ha => h.wins (hlose a ha)
  -- Up to some step, all intervals are short.
  obtain ⟨m, hm⟩ := exists_common (p := fun n a => (E n).len a < η) (fun hmn hp => lt_of_le_of_lt (h.len_le hmn _) hp) (E 0).top
    (fun a ha => h.small (hlose a ha) hη)
  obtain ⟨a, y₁, ⟨g1, g2, g3⟩, htower⟩ := h.tower hz hz' m
  have hlen := hm a (h.path.mem.mp g1)
  obtain ⟨n, hn⟩ := (h.shiftGame m).visits_all (fun b hb k => by
    obtain ⟨j, hj, e⟩ := hwin b (h.path.mem.mp hb) (k + m)
    exact ⟨j - m, by omega, by simp only; rw [show j - m + m = j by omega]; exact e⟩) (a := a) (by simpa using g1)
  unfold Visits at hn
  simp only [Nat.zero_add] at hn
  -- The orbit gets into the small interval.
  have hF := h.fwd (n + m)
  obtain ⟨y, r1, r2⟩ := hF.hits x hx hx'
  have hy : y < (E 0).total := by
    rcases Relation.ReflTransGen.cases_tail r1 with e | ⟨_, -, e⟩
    · rw [e]; exact hx'
    · exact (h.path.valid.maps_range e).2
  obtain ⟨b, hb⟩ := hF.valid'.exists_in (x := y - ((E 0).total - (E (n + m)).total)) (by linarith) (by linarith)
  obtain ⟨z', r3, r4⟩ := hn b (h.path.mem.mp hb.1) _ hb
  have r5 := (h.fwd m).reach r3
  have e : y - ((E 0).total - (E (n + m)).total) + ((E m).total - (E (n + m)).total) + ((E 0).total - (E m).total) = y := by ring
  rw [e] at r5
  refine ⟨z + (z' - y₁), (r1.trans r5).trans (htower z' r4), ?_, ?_⟩
  · linarith [r4.2.1]
  · linarith [r4.2.2]

/-! ### Transformations without connections -/

omit [Archimedean T] in
theorem AIET.Free.irreducible {A : AIET T} (hA : A.Valid) (h : A.Free) : A.Irreducible := by
  classical
  by_contra hi
  unfold AIET.Irreducible at hi
  push Not at hi
  have hex : ∃ k, 0 < k ∧ k < A.top.length ∧ (A.top.take k).Perm (A.bottom.take k) := hi
  obtain ⟨h1, h2, h3⟩ := Nat.find_spec hex
  obtain ⟨e, he⟩ := IsCut.joined (k := Nat.find hex) hA ⟨h1, h2, rfl, rfl, h3.symm, fun j hj hj' hp => Nat.find_min hex hj' ⟨hj, by omega, hp⟩⟩
  exact h _ _ _ he

omit [Archimedean T] in
theorem AIET.Free.not_level {A : AIET T} (hA : A.Valid) (h : A.Free) (hlen : A.top.length ≠ 1) : ¬ A.Level := by
  rintro ⟨a, b, ha, hb, hab⟩
  have h1 : 1 < A.top.length := by
    have := List.length_pos_of_ne_nil hA.ne_nil
    omega
  have h2 : 1 < A.bottom.length := by rw [hA.perm.length_eq]; exact h1
  have e1 := off_getElem (len := A.len) h1 hA.nodup
  have e2 := off_getElem (len := A.len) h2 hA.nodup_bottom
  have s1 : sumLen A.len (A.top.take 1) = A.len a := by
    cases htop : A.top with
    | nil => rw [htop] at ha; cases ha
    | cons a' t => rw [htop] at ha; cases ha; simp [sumLen]
  have s2 : sumLen A.len (A.bottom.take 1) = A.len a := by
    rw [hab]
    cases hbot : A.bottom with
    | nil => rw [hbot] at hb; cases hb
    | cons a' t => rw [hbot] at hb; cases hb; simp [sumLen]
  have hp : 0 < A.len a := hA.pos a (List.mem_of_mem_head? ha)
  exact h 0 (A.len a) (A.len a) ⟨⟨_, List.getElem_mem h2, by rw [e2, s2]⟩, ⟨_, List.getElem_mem h1, by rw [e1, s1]⟩, hp, hp, rfl⟩

omit [Archimedean T] in
theorem AIET.Free.exists_step {A : AIET T} (hA : A.Valid) (h : A.Free) (hlen : A.top.length ≠ 1) : ∃ B, RauzyStep A B := by
  rcases hA.exists_step (h.not_level hA hlen) with ⟨B, hB⟩ | ⟨B, hB⟩
  · exact ⟨B, .inl hB⟩
  · exact ⟨B.inv, .inr (by rwa [AIET.inv_inv])⟩

omit [Archimedean T] in
theorem AIET.Free.step {A B : AIET T} (hA : A.Valid) (h : A.Free) (hs : RauzyStep A B) : B.Free := by
  intro n e d hj
  obtain ⟨n', e', d', h'⟩ := hs.joined_back hA hj
  exact h _ _ _ h'

/-- Without connections the induction goes on forever. -/
theorem AIET.Free.exists_path {A : AIET T} (hA : A.Valid) (h : A.Free) (hlen : A.top.length ≠ 1) :
    ∃ E : ℕ → AIET T, E 0 = A ∧ RauzyPath E ∧ ∀ n, (E n).Free := by
  classical
  let S := { B : AIET T // B.Valid ∧ B.Free ∧ B.top.length ≠ 1 }
  have hnext : ∀ B : S, ∃ C : S, RauzyStep B.1 C.1 := by
    rintro ⟨B, h1, h2, h3⟩
    obtain ⟨C, hC⟩ := h2.exists_step h1 h3
    have hs : Steps B C := .single hC
    exact ⟨⟨C, hs.valid h1, h2.step h1 hC, by rw [hs.top_perm.length_eq]; exact h3⟩, hC⟩
  choose f hf using hnext
  let F : ℕ → S := fun n => f^[n] ⟨A, hA, h, hlen⟩
  refine ⟨fun n => (F n).1, rfl, ⟨hA, fun n => ?_⟩, fun n => (F n).2.2.1⟩
  simp only [F, Function.iterate_succ_apply']
  exact hf _

/-- **Keane**: without connections, every orbit gets arbitrarily close to every point. -/
theorem AIET.Free.dense {A : AIET T} (hA : A.Valid) (h : A.Free) (hlen : A.top.length ≠ 1) {x z η : T} (hx : 0 ≤ x) (hx' : x < A.total)
    (hz : 0 ≤ z) (hz' : z < A.total) (hη : 0 < η) : ∃ y, A.Reach x y ∧ z - η < y ∧ y < z + η := by
  obtain ⟨E, rfl, hE, hfree⟩ := h.exists_path hA hlen
  obtain ⟨w, l, hG⟩ := hE.game
  exact hG.dense (fun n => ⟨n, le_refl _, (hfree n).irreducible (hE.valid' n)⟩) hx hx' hz hz' hη

theorem AIET.Free.inv {A : AIET T} (hA : A.Valid) (h : A.Free) : A.inv.Free := by
  intro n e d hj
  have := hj.inv hA.inv
  rw [AIET.inv_inv] at this
  exact h _ _ _ this

/-- Without connections there are arbitrarily short lengths. -/
theorem AIET.Free.exists_half {A : AIET T} (hA : A.Valid) (h : A.Free) (hlen : A.top.length ≠ 1) {η : T} (hη : 0 < η) : ∃ e, 0 < e ∧ e + e ≤ η := by
  obtain ⟨E, rfl, hE, hfree⟩ := h.exists_path hA hlen
  obtain ⟨w, l, hG⟩ := hE.game
  obtain ⟨a, ha⟩ := List.exists_mem_of_ne_nil _ hA.ne_nil
  obtain ⟨m, hm⟩ := hG.small (hG.often (fun n => ⟨n, le_refl _, (hfree n).irreducible (hE.valid' n)⟩) a ha) hη
  have hp := (hE.valid' m).pos a (hE.mem.mpr ha)
  rcases le_total ((E m).len a) (η - (E m).len a) with h' | h'
  · exact ⟨_, hp, by linarith⟩
  · exact ⟨η - (E m).len a, by linarith, by linarith⟩

/-- **Keane** -/
theorem AIET.Free.minimal {A : AIET T} (hA : A.Valid) (h : A.Free) (hlen : A.top.length ≠ 1) : A.Minimal := by
  intro x u v hx hx' hu huv hv
  obtain ⟨e, he, he'⟩ := h.exists_half hA hlen (η := v - u) (by linarith)
  have hlen' : A.inv.top.length ≠ 1 := by
    have := hA.perm.length_eq
    simp only [AIET.inv]
    omega
  have htot : A.inv.total = A.total := hA.total_inv
  obtain ⟨y, h1, h2, h3⟩ := h.dense hA hlen hx hx' (z := u + e) (η := e) (by linarith) (by linarith) he
  obtain ⟨y', g1, g2, g3⟩ := (h.inv hA).dense hA.inv hlen' (x := x) hx (by rw [htot]; exact hx') (z := u + e) (η := e) (by linarith) (by linarith) he
  exact ⟨⟨y, h1, by linarith, by linarith⟩, y', hA.reflTransGen_inv g1, by linarith, by linarith⟩

/-! ### From a part to the entire transformation -/

omit [Archimedean T]

/-- The points on the right follow. -/
theorem Iter.right {A : AIET T} : ∀ {n : ℕ} {x y : T}, Iter A.Maps n x y → ∃ η, 0 < η ∧ ∀ t, 0 ≤ t → t < η → Iter A.Maps n (x + t) (y + t)
  | 0, x, y, h => ⟨1, one_pos, fun t _ _ => by cases h; rfl⟩
  | n + 1, x, y, ⟨z, ⟨a, h1, h2, h3, h4⟩, h⟩ => by
    obtain ⟨η, g1, g2⟩ := h.right
    refine ⟨min η (off A.len A.top a + A.len a - x), lt_min g1 (by linarith), fun t ht ht' => ?_⟩
    obtain ⟨k1, k2⟩ := lt_min_iff.mp ht'
    exact ⟨z + t, ⟨a, h1, by linarith, by linarith, by rw [h4]; ring⟩, g2 t ht k1⟩

theorem Iter.reach {R : T → T → Prop} : ∀ {n : ℕ} {x y : T}, Iter R n x y → Relation.ReflTransGen R x y
  | 0, _, _, h => by cases h; exact .refl
  | _ + 1, _, _, ⟨_, h1, h2⟩ => .head h1 h2.reach

theorem exists_iter_of_reach {R : T → T → Prop} {x y : T} (h : Relation.ReflTransGen R x y) : ∃ n, Iter R n x y := by
  induction h using Relation.ReflTransGen.head_induction_on with
  | refl => exact ⟨0, rfl⟩
  | head h1 _ ih =>
    obtain ⟨n, hn⟩ := ih
    exact ⟨n + 1, _, h1, hn⟩

/-- The last part of an orbit is determined by its end. -/
theorem AIET.Valid.iter_tail {A : AIET T} (hA : A.Valid) {k : ℕ} : ∀ {n : ℕ} {x y z : T}, Iter A.Maps (k + n) x y → Iter A.Maps n z y → Iter A.Maps k x z
  | 0, x, y, z, h, h' => by cases h'; exact h
  | n + 1, x, y, z, h, h' => by
    obtain ⟨y₁, h1, h2⟩ := Iter.snoc (n := k + n) h
    obtain ⟨y₂, h3, h4⟩ := Iter.snoc h'
    have := hA.maps_inj h2 h4
    subst this
    exact hA.iter_tail h1 h3

/-- One can follow an orbit in a part for as long as one wants to. -/
theorem exists_far {E : AIET T} {p : T × AIET T} (hp : p.2.Valid) (hmaps : ∀ x y, 0 ≤ x → x < p.2.total →
    (p.2.Maps x y ↔ FirstReturn E.Maps (Inside p) (x + p.1) (y + p.1))) :
    ∀ (k : ℕ) {x : T}, 0 ≤ x → x < p.2.total → ∃ y m, 0 ≤ y ∧ y < p.2.total ∧ k ≤ m ∧ Iter E.Maps m (x + p.1) (y + p.1)
  | 0, x, h0, h1 => ⟨x, 0, h0, h1, le_refl _, rfl⟩
  | k + 1, x, h0, h1 => by
    obtain ⟨x', hx'⟩ := hp.maps_total h0 h1
    have hr := hp.maps_range hx'
    obtain ⟨y, m, g1, g2, g3, g4⟩ := exists_far hp hmaps k hr.1 hr.2
    have hf := (hmaps _ _ h0 h1).mp hx'
    have : ∃ n, Iter E.Maps (n + 1) (x + p.1) (x' + p.1) := by
      cases hf with
      | now h _ => exact ⟨0, _, h, rfl⟩
      | later h _ h' =>
        obtain ⟨n, hn⟩ := h'.exists_iter
        exact ⟨n, _, h, hn⟩
    obtain ⟨n, hn⟩ := this
    exact ⟨y, n + 1 + m, g1, g2, by omega, Iter.trans' hn g4⟩

/-- When a part is minimal then the orbits that meet it get arbitrarily close to each other. -/
theorem AIET.Minimal.meets {E : AIET T} (hE : E.Valid) {p : T × AIET T} (hp : p.2.Valid) (hmaps : ∀ x y, 0 ≤ x → x < p.2.total →
    (p.2.Maps x y ↔ FirstReturn E.Maps (Inside p) (x + p.1) (y + p.1))) (hmin : p.2.Minimal) {x z v : T} (hx : Meets E p x) (hz : Meets E p z) (hv : z < v) :
    ∃ y, E.Reach x y ∧ z < y ∧ y < v := by
  obtain ⟨x₁, hx1, hx2, hx3⟩ := hx
  obtain ⟨z₁, hz1, hz2, hz3⟩ := hz
  obtain ⟨k, hk⟩ := exists_iter_of_reach hz1
  obtain ⟨η, h1, h2⟩ := hk.right
  obtain ⟨x₂, m, h3, h4, h5, h6⟩ := exists_far hp hmaps k (x := x₁ - p.1) (by linarith) (by linarith)
  rw [sub_add_cancel] at h6
  have hlt : z₁ - p.1 < min (min (z₁ - p.1 + η) (z₁ - p.1 + (v - z))) p.2.total := lt_min (lt_min (by linarith) (by linarith)) (by linarith)
  obtain ⟨⟨y, h7, h8, h9⟩, -⟩ := hmin x₂ (z₁ - p.1) _ h3 h4 (by linarith) hlt (min_le_right _ _)
  obtain ⟨h9', -⟩ := lt_min_iff.mp h9
  obtain ⟨h9, h10⟩ := lt_min_iff.mp h9'
  have hlift : E.Reach (x₂ + p.1) (y + p.1) := by
    clear * - h7 hp hmaps
    induction h7 with
    | refl => exact .refl
    | tail _ h' ih =>
      have hd := hp.maps_dom h'
      exact ih.trans ((hmaps _ _ hd.1 hd.2).mp h').reach
  obtain ⟨n, hn⟩ := exists_iter_of_reach hlift
  have h11 := Iter.trans' h6 hn
  have h12 := h2 (y + p.1 - z₁) (by linarith) (by linarith)
  rw [add_sub_cancel] at h12
  rw [show m + n = (m + n - k) + k by omega] at h11
  exact ⟨z + (y + p.1 - z₁), hx1.trans (hE.iter_tail h11 h12).reach, by linarith, by linarith⟩

/-- The orbits that meet a cylinder are periodic. -/
theorem periodic_of_meets {E : AIET T} (hE : E.Valid) {p : T × AIET T} (hp : p.2.Valid) (hmaps : ∀ x y, 0 ≤ x → x < p.2.total →
    (p.2.Maps x y ↔ FirstReturn E.Maps (Inside p) (x + p.1) (y + p.1))) (hlen : p.2.top.length = 1) {x : T} (hx : Meets E p x) : Periodic E.Maps x := by
  obtain ⟨x₁, hx1, hx2, hx3⟩ := hx
  have hfix : p.2.Maps (x₁ - p.1) (x₁ - p.1) := by
    obtain ⟨a, ha⟩ := List.length_eq_one_iff.mp hlen
    have hb : p.2.bottom = [a] := List.perm_singleton.mp (ha ▸ hp.perm)
    obtain ⟨y, hy⟩ := hp.maps_total (x := x₁ - p.1) (by linarith) (by linarith)
    obtain ⟨b, h1, h2, h3, h4⟩ := hy
    refine ⟨b, h1, h2, h3, ?_⟩
    rw [ha, hb]
    ring
  have hf := (hmaps _ _ (by linarith) (by linarith)).mp hfix
  rw [sub_add_cancel] at hf
  have hper : Periodic E.Maps x₁ := by
    unfold Periodic
    cases hf with
    | now h _ => exact .single h
    | later h _ h' => exact .head' h h'.reach
  -- Backwards along the orbit
  induction hx1 using Relation.ReflTransGen.head_induction_on with
  | refl => exact hper
  | head h1 _ ih =>
    unfold Periodic at ih ⊢
    obtain ⟨y, h3, h4⟩ := Relation.TransGen.tail'_iff.mp ih
    have := hE.maps_inj h4 h1
    subst this
    exact .head' h1 h3

end Verif
