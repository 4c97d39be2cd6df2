import Verif.Proofs.Track
import Verif.Proofs.Minimal

/-!
# Periodic itineraries

The cylinders of a decomposition are the sets of points that follow a given periodic itinerary.
-/

namespace Verif

set_option linter.unusedSectionVars false

variable {P : Type} [CommRing P] [LinearOrder P] [IsStrictOrderedRing P] {E : AIET P}

theorem AIET.Valid.mapsBy_unique (hE : E.Valid) {a b : Label} {x y z : P} (h : E.MapsBy a x y) (h' : E.MapsBy b x z) : a = b ∧ y = z := by
  obtain rfl := off_unique hE.pos h.1 h'.1 h.2.1 h.2.2.1 h'.2.1 h'.2.2.1
  exact ⟨rfl, h.2.2.2.trans h'.2.2.2.symm⟩

/-- Two itineraries of a point of the same length are the same. -/
theorem AIET.Path.unique (hE : E.Valid) : ∀ {u v : List Label} {x y z : P}, E.Path u x y → E.Path v x z → u.length = v.length → u = v ∧ y = z
  | [], [], _, _, _, h, h', _ => ⟨rfl, h.symm.trans h'⟩
  | a :: u, b :: v, _, _, _, ⟨_, h1, h2⟩, ⟨_, h1', h2'⟩, hl => by
    obtain ⟨rfl, rfl⟩ := hE.mapsBy_unique h1 h1'
    obtain ⟨rfl, rfl⟩ := AIET.Path.unique hE h2 h2' (by simpa using hl)
    exact ⟨rfl, rfl⟩
  | [], b :: v, _, _, _, _, _, hl => by simp at hl
  | a :: u, [], _, _, _, _, _, hl => by simp at hl

/-- The points with a given itinerary form an interval. -/
theorem AIET.Path.between : ∀ {w : List Label} {x x' y y' z : P}, E.Path w x x' → E.Path w y y' → x ≤ z → z ≤ y → E.Path w z (z + (x' - x))
  | [], _, _, _, _, _, h, _, _, _ => by cases h; show _ = _; ring
  | a :: w, x, x', y, y', z, ⟨x₁, h1, h2⟩, ⟨y₁, h3, h4⟩, hxz, hzy => by
    have e1 := h1.2.2.2
    have e3 := h3.2.2.2
    refine ⟨z + (x₁ - x), ⟨h1.1, h1.2.1.trans hxz, hzy.trans_lt h3.2.2.1, by rw [e1]; ring⟩, ?_⟩
    have := AIET.Path.between (w := w) h2 h4 (z := z + (x₁ - x)) (by linarith) (by linarith)
    rwa [show z + (x₁ - x) + (x' - x₁) = z + (x' - x) by ring] at this

/-- Points with the same periodic itinerary move in parallel. -/
theorem AIET.Path.shift (hE : E.Valid) : ∀ {n : ℕ} {w : List Label} {x y x' : P}, w ≠ [] → E.Path w x x → E.Path w y y → Iter E.Maps n x x' →
    ∃ v, v.length = w.length ∧ E.Path v x' x' ∧ E.Path v (y + (x' - x)) (y + (x' - x)) ∧ Iter E.Maps n y (y + (x' - x))
  | 0, w, x, y, x', _, hx, hy, h => by
    cases h
    rw [sub_self, add_zero]
    exact ⟨w, rfl, hx, hy, rfl⟩
  | n + 1, [], _, _, _, hw, _, _, _ => absurd rfl hw
  | n + 1, a :: u, x, y, x', _, ⟨x₁, h1, h2⟩, ⟨y₁, h3, h4⟩, ⟨z, g1, g2⟩ => by
    obtain ⟨b, hb⟩ := AIET.maps_iff_mapsBy.mp g1
    obtain ⟨rfl, rfl⟩ := hE.mapsBy_unique h1 hb
    have e1 := h1.2.2.2
    have e3 := h3.2.2.2
    obtain ⟨v, k1, k2, k3, k4⟩ := AIET.Path.shift hE (n := n) (w := u ++ [a]) (x := x₁) (y := y₁) (x' := x') (by simp)
      (AIET.path_append.mpr ⟨x, h2, x₁, h1, rfl⟩) (AIET.path_append.mpr ⟨y, h4, y₁, h3, rfl⟩) g2
    have e : y₁ + (x' - x₁) = y + (x' - x) := by linear_combination e3 - e1
    rw [e] at k3 k4
    exact ⟨v, by simpa using k1, k2, k3, y₁, AIET.maps_iff_mapsBy.mpr ⟨a, h3⟩, k4⟩

/-- Which of the periodic itineraries of a point one considers makes no difference. -/
theorem AIET.Path.transfer (hE : E.Valid) {w v : List Label} {x y : P} (hx : E.Path w x x) (hy : E.Path w y y) (hv : E.Path v x x) (hw : w ≠ []) :
    E.Path v y y := by
  rcases Nat.eq_zero_or_pos v.length with h0 | h0
  · rw [List.eq_nil_of_length_eq_zero h0]; rfl
  obtain ⟨n, hn⟩ : ∃ n, w.length = n + 1 := ⟨w.length - 1, by have := List.length_pos_iff.mpr hw; omega⟩
  obtain ⟨e, -⟩ := AIET.Path.unique hE (hx.repeat v.length) (hv.repeat w.length) (by
    simp only [List.length_flatten, List.map_replicate, List.sum_replicate, smul_eq_mul]
    exact Nat.mul_comm _ _)
  have hy' := hy.repeat v.length
  rw [e, hn, List.replicate_succ, List.flatten_cons, AIET.path_append] at hy'
  obtain ⟨z, h1, -⟩ := hy'
  have := h1.transl hv
  obtain rfl : z = y := by linarith
  exact h1

theorem AIET.Twins.symm {x y : P} (h : E.Twins x y) : E.Twins y x := by
  obtain ⟨w, h1, h2, h3⟩ := h
  exact ⟨w, h1, h3, h2⟩

theorem AIET.Twins.trans (hE : E.Valid) {x y z : P} (h : E.Twins x y) (h' : E.Twins y z) : E.Twins x z := by
  obtain ⟨w, h1, h2, h3⟩ := h
  obtain ⟨w', h1', h2', h3'⟩ := h'
  exact ⟨w', h1', h3.transfer hE h2 h2' h1, h3'⟩

theorem AIET.Twins.refl_left {x y : P} (h : E.Twins x y) : E.Twins x x := by
  obtain ⟨w, h1, h2, h3⟩ := h
  exact ⟨w, h1, h2, h2⟩

theorem AIET.twins_self {x : P} : E.Twins x x ↔ Periodic E.Maps x := by
  constructor
  · rintro ⟨w, h1, h2, -⟩
    cases w with
    | nil => exact absurd rfl h1
    | cons a w =>
      obtain ⟨y, h3, h4⟩ := h2
      exact .head' (AIET.maps_iff_mapsBy.mpr ⟨a, h3⟩) h4.iter.reach
  · intro h
    obtain ⟨y, h1, h2⟩ := Relation.TransGen.head'_iff.mp h
    obtain ⟨n, hn⟩ := exists_iter_of_reach h2
    obtain ⟨w, hw, hp⟩ := Iter.path (n := n + 1) (show Iter E.Maps (n + 1) x x from ⟨y, h1, hn⟩)
    exact ⟨w, by rintro rfl; simp at hw, hp, hp⟩

theorem AIET.Twins.periodic {x y : P} (h : E.Twins x y) : Periodic E.Maps x := AIET.twins_self.mp h.refl_left

/-- The orbits of two points with the same periodic itinerary are translates of each other. -/
theorem AIET.Twins.reach (hE : E.Valid) {x y x' : P} (h : E.Twins x y) (hr : Relation.ReflTransGen E.Maps x x') :
    E.Twins x' (y + (x' - x)) ∧ Relation.ReflTransGen E.Maps y (y + (x' - x)) := by
  obtain ⟨w, h1, h2, h3⟩ := h
  obtain ⟨n, hn⟩ := exists_iter_of_reach hr
  obtain ⟨v, k1, k2, k3, k4⟩ := AIET.Path.shift hE h1 h2 h3 hn
  exact ⟨⟨v, by rintro rfl; exact h1 (List.eq_nil_of_length_eq_zero k1.symm), k2, k3⟩, k4.reach⟩

/-- Along a periodic orbit one can go back. -/
theorem AIET.Twins.back (hE : E.Valid) {x y x' : P} (h : E.Twins x y) (hr : Relation.ReflTransGen E.Maps x x') : Relation.ReflTransGen E.Maps x' x := by
  have hp := h.periodic
  induction hr with
  | refl => exact .refl
  | @tail u v h1 h2 ih =>
    have hu : Relation.TransGen E.Maps u u := transGen_of_reflTransGen_cycle hE.maps_fun hp h1
    obtain ⟨v', h3, h4⟩ := Relation.TransGen.head'_iff.mp hu
    rw [hE.maps_fun _ _ _ h2 h3]
    exact h4.trans ih

theorem AIET.Twins.inv (hE : E.Valid) {x y : P} (h : E.Twins x y) : E.inv.Twins x y := by
  obtain ⟨w, h1, h2, h3⟩ := h
  exact ⟨w.reverse, by simpa using h1, hE.path_inv h2, hE.path_inv h3⟩

theorem AIET.Twins.dom (hE : E.Valid) {x y : P} (h : E.Twins x y) : 0 ≤ x ∧ x < E.total := by
  obtain ⟨z, h1, -⟩ := Relation.TransGen.head'_iff.mp h.periodic
  exact hE.maps_dom h1

/-- The first interval is the same. -/
theorem AIET.Twins.label {x y : P} (h : E.Twins x y) : ∃ a ∈ E.top, (off E.len E.top a ≤ x ∧ x < off E.len E.top a + E.len a) ∧
    off E.len E.top a ≤ y ∧ y < off E.len E.top a + E.len a := by
  obtain ⟨w, h1, h2, h3⟩ := h
  cases w with
  | nil => exact absurd rfl h1
  | cons a w =>
    obtain ⟨x', h4, -⟩ := h2
    obtain ⟨y', h5, -⟩ := h3
    exact ⟨a, h4.1, ⟨h4.2.1, h4.2.2.1⟩, h5.2.1, h5.2.2.1⟩

/-- Points between twins are twins. -/
theorem AIET.Twins.between {x y z : P} (h : E.Twins x y) (h1 : x ≤ z) (h2 : z ≤ y) : E.Twins x z := by
  obtain ⟨w, hw, hx, hy⟩ := h
  have := hx.between hy h1 h2
  rw [sub_self, add_zero] at this
  exact ⟨w, hw, hx, this⟩

/-- No two points on the same periodic orbit have the same itinerary. -/
theorem AIET.Twins.eq_of_reach (hE : E.Valid) {x y : P} (h : E.Twins x y) (hr : Relation.ReflTransGen E.Maps x y) : x = y := by
  obtain ⟨w, hw, hx, hy⟩ := h
  obtain ⟨k, hk⟩ := exists_iter_of_reach hr
  have step : ∀ {u : P}, E.Path w u u → E.Path w (u + (y - x)) (u + (y - x)) ∧ Iter E.Maps k u (u + (y - x)) := by
    intro u hu
    obtain ⟨v, k1, k2, k3, k4⟩ := AIET.Path.shift hE hw hx hu hk
    obtain ⟨rfl, -⟩ := AIET.Path.unique hE k2 hy k1
    exact ⟨k3, k4⟩
  have many : ∀ j : ℕ, E.Path w (x + j * (y - x)) (x + j * (y - x)) ∧ Iter E.Maps (j * k) x (x + j * (y - x)) := by
    intro j
    induction j with
    | zero => simpa using ⟨hx, rfl⟩
    | succ j ih =>
      have := step ih.1
      rw [show x + j * (y - x) + (y - x) = x + ((j + 1 : ℕ) : P) * (y - x) by push_cast; ring] at this
      refine ⟨this.1, ?_⟩
      rw [Nat.succ_mul]
      exact iter_add.mpr ⟨_, ih.2, this.2⟩
  have h1 := (many w.length).2
  have h2 := (hx.repeat k).iter
  rw [show (List.replicate k w).flatten.length = w.length * k by
    simp only [List.length_flatten, List.map_replicate, List.sum_replicate, smul_eq_mul]; exact Nat.mul_comm _ _] at h2
  have e := iter_unique hE.maps_fun h1 h2
  have e' : ((w.length : ℕ) : P) * (y - x) = 0 := by linarith
  rcases mul_eq_zero.mp e' with h0 | h0
  · exact absurd (Nat.cast_eq_zero.mp h0) (by have := List.length_pos_iff.mpr hw; omega)
  · linarith

/-- The right end of a top interval separates itineraries. -/
theorem AIET.Valid.not_twins_rightTop (hE : E.Valid) {t : Label} (ht : t ∈ E.top) {x : P} (hx : x < E.rightTop t) : ¬ E.Twins x (E.rightTop t) := by
  intro h
  obtain ⟨a, ha, ⟨h1, h2⟩, h3, h4⟩ := h.label
  unfold AIET.rightTop at hx h4
  rcases ends_ordered hE.pos ha ht with h5 | h5
  · exact absurd h4 (not_lt.mpr h5)
  · exact absurd (lt_of_le_of_lt h1 hx) (not_lt.mpr h5)

variable {A₀ : AIET P} {pieces : List (P × AIET P)} {m : ConnMap} {R : List Conn}

theorem Covers.meets_unique (h₀ : A₀.Valid) (h : Covers A₀ pieces) {p q : P × AIET P} (hp : p ∈ pieces) (hq : q ∈ pieces) {x : P} (h1 : Meets A₀ p x)
    (h2 : Meets A₀ q x) : p = q := by
  by_contra hne
  have hs : ∀ u v, Inside p u → Inside q v → ¬ Relation.ReflTransGen A₀.Maps u v ∧ ¬ Relation.ReflTransGen A₀.Maps v u :=
    haveI : Std.Symm (fun p q : P × AIET P => ∀ x y, Inside p x → Inside q y →
        ¬ Relation.ReflTransGen A₀.Maps x y ∧ ¬ Relation.ReflTransGen A₀.Maps y x) := ⟨fun _ _ h x y hx hy => (h y x hy hx).symm⟩
    h.separate.forall hp hq hne
  obtain ⟨u, hu, hu'⟩ := h1
  obtain ⟨v, hv, hv'⟩ := h2
  rcases Relation.ReflTransGen.total_of_right_unique (fun a b c (h : A₀.Maps a b) h' => h₀.maps_fun a b c h h') hu hv with h3 | h3
  · exact (hs u v hu' hv').1 h3
  · exact (hs u v hu' hv').2 h3

theorem Track.meets_of_lt (h : Track A₀ pieces m R) {p : P × AIET P} (hp : p ∈ pieces) {x y : P} (hxy : A₀.Twins x y) (hlt : x ≤ y)
    (hm : Meets A₀ p x) : Meets A₀ p y := by
  obtain ⟨z, h1, h2, h3⟩ := hm
  obtain ⟨h4, h5⟩ := hxy.reach h.base h1
  refine ⟨_, h5, by linarith, ?_⟩
  by_contra hge
  rw [not_lt] at hge
  -- The end of the piece would be periodic with the same itinerary
  have he : A₀.Twins z (p.2.total + p.1) := h4.between (by linarith) (by linarith)
  rcases h.ends p hp with h6 | ⟨t, ht, h6⟩
  · rw [h6] at he
    exact absurd (he.symm.dom h.base).2 (lt_irrefl _)
  · obtain ⟨h7, -⟩ := he.symm.reach h.base h6
    exact h.base.not_twins_rightTop (List.mem_of_mem_dropLast ht) (by linarith) h7.symm

/-- Points with the same periodic itinerary end up in the same piece. -/
theorem Track.meets_iff (h : Track A₀ pieces m R) {p : P × AIET P} (hp : p ∈ pieces) {x y : P} (hxy : A₀.Twins x y) : Meets A₀ p x ↔ Meets A₀ p y := by
  wlog hle : x ≤ y generalizing x y
  · exact (this hxy.symm (le_of_not_ge hle)).symm
  refine ⟨h.meets_of_lt hp hxy hle, fun hm => ?_⟩
  obtain ⟨h0, h1⟩ := hxy.dom h.base
  obtain ⟨q, hq, hm'⟩ := h.cover.meets x h0 h1
  have := h.meets_of_lt hq hxy hle hm'
  rw [h.cover.meets_unique h.base hp hq hm this]
  exact hm'

/-- A piece with a single interval consists of the points with a given periodic itinerary. -/
theorem Track.twins_iff (h : Track A₀ pieces m R) {p : P × AIET P} (hp : p ∈ pieces) (hlen : p.2.top.length = 1) {x : P} (hx : Inside p x) (y : P) :
    A₀.Twins x y ↔ Inside p y := by
  obtain ⟨w, hw⟩ := h.towers
  obtain ⟨a, ha⟩ := List.length_eq_one_iff.mp hlen
  have hv := h.cover.valid p hp
  have hb : p.2.bottom = [a] := List.perm_singleton.mp (ha ▸ hv.perm)
  have loop : ∀ {y : P}, Inside p y → A₀.Path (w a) y y ∧ w a ≠ [] := by
    rintro y ⟨y1, y2⟩
    have := hw.excursion _ hp a (by rw [ha]; simp) (y - p.1) (y - p.1) ⟨by rw [ha]; simp, by simp only [ha, off_cons_self]; linarith,
      by simp only [ha, off_cons_self, AIET.total, sumLen_cons, sumLen_nil] at y2 ⊢; linarith, by simp only [ha, hb, off_cons_self]; ring⟩
    rw [sub_add_cancel] at this
    exact ⟨this.path, this.ne_nil⟩
  constructor
  · intro hxy
    obtain ⟨z, hz, hz'⟩ := (h.meets_iff hp hxy).mp ⟨x, .refl, hx⟩
    have hyz : A₀.Twins y z := hxy.symm.trans h.base ⟨w a, (loop hx).2, (loop hx).1, (loop hz').1⟩
    rwa [hyz.eq_of_reach h.base hz]
  · intro hy
    exact ⟨w a, (loop hx).2, (loop hx).1, (loop hy).1⟩

/-! ### The cylinders as intervals -/

/-- The point lies in the interval that starts at `c.1` and has length `c.2`. -/
def InSpan (c : P × P) (x : P) : Prop := c.1 ≤ x ∧ x < c.1 + c.2

/-- Disjoint cylinders, given by offset and width. -/
structure CylinderSystem (A : AIET P) (cs : List (P × P)) : Prop where
  pos : ∀ c ∈ cs, 0 < c.2
  twins : ∀ c ∈ cs, ∀ x, InSpan c x → ∀ y, A.Twins x y ↔ InSpan c y
  separate : cs.Pairwise (fun c c' => ∀ x y, InSpan c x → InSpan c' y → ¬ Relation.ReflTransGen A.Maps x y)

/-- All periodic points get to one of these intervals. -/
def Exhausts (A : AIET P) (cs : List (P × P)) : Prop := ∀ x, Periodic A.Maps x → ∃ c ∈ cs, ∃ y, Relation.ReflTransGen A.Maps x y ∧ InSpan c y

theorem subperm_of_match {α β γ : Type} (M : α → β → Prop) (f : α → γ) (g : β → γ) : ∀ {l : List α} {l' : List β}, (∀ a ∈ l, ∃ b ∈ l', M a b) →
    (∀ a ∈ l, ∀ b ∈ l', M a b → f a = g b) → l.Pairwise (fun a a' => ∀ b ∈ l', M a b → ¬ M a' b) → (l.map f).Subperm (l'.map g)
  | [], _, _, _, _ => List.nil_subperm
  | a :: l, l', h1, h2, h3 => by
    classical
    obtain ⟨b, hb, hab⟩ := h1 a (by simp)
    rw [List.pairwise_cons] at h3
    have hp := List.perm_cons_erase hb
    have ih := subperm_of_match M f g (l := l) (l' := l'.erase b) (fun a' ha' => by
      obtain ⟨b', hb', hab'⟩ := h1 a' (List.mem_cons_of_mem _ ha')
      exact ⟨b', (List.mem_erase_of_ne (by rintro rfl; exact h3.1 a' ha' _ hb hab hab')).mpr hb', hab'⟩)
      (fun a' ha' b' hb' => h2 a' (List.mem_cons_of_mem _ ha') b' (List.mem_of_mem_erase hb'))
      (h3.2.imp (fun h b' hb' => h b' (List.mem_of_mem_erase hb')))
    refine List.Subperm.trans ?_ (hp.map g).symm.subperm
    rw [List.map_cons, List.map_cons, h2 a (by simp) b hb hab]
    exact (List.subperm_cons _).mpr ih

theorem InSpan.start {c : P × P} (h : 0 < c.2) : InSpan c c.1 := ⟨le_refl _, by linarith⟩

/-- The widths of cylinders are determined by the map. -/
theorem CylinderSystem.subperm {A : AIET P} (hA : A.Valid) {cs cs' : List (P × P)} (h : CylinderSystem A cs) (h' : CylinderSystem A cs')
    (hex : Exhausts A cs') : (cs.map Prod.snd).Subperm (cs'.map Prod.snd) := by
  refine subperm_of_match (fun c c' => ∃ x y, InSpan c x ∧ InSpan c' y ∧ Relation.ReflTransGen A.Maps x y) Prod.snd Prod.snd ?_ ?_ ?_
  · intro c hc
    have hin := InSpan.start (h.pos c hc)
    obtain ⟨c', hc', y, h1, h2⟩ := hex c.1 ((h.twins c hc _ hin _).mpr hin).periodic
    exact ⟨c', hc', c.1, y, hin, h2, h1⟩
  · rintro c hc c' hc' ⟨x, z, hx, hz, hr⟩
    have hxx := (h.twins c hc x hx x).mpr hx
    have hback := hxx.back hA hr
    have key : ∀ u, InSpan c u ↔ InSpan c' (u + (z - x)) := by
      intro u
      rw [← h.twins c hc x hx, ← h'.twins c' hc' z hz]
      refine ⟨fun hu => (hu.reach hA hr).1, fun hu => ?_⟩
      have := (hu.reach hA hback).1
      rwa [show u + (z - x) + (x - z) = u by ring] at this
    have k1 := (key c.1).mp (.start (h.pos c hc))
    have k2 := (key (c'.1 - (z - x))).mpr (by rw [sub_add_cancel]; exact .start (h'.pos c' hc'))
    have e : c'.1 = c.1 + (z - x) := le_antisymm k1.1 (by linarith [k2.1])
    refine le_antisymm ?_ ?_
    · by_contra hlt
      rw [not_le] at hlt
      have := (key (c.1 + c'.2)).mp ⟨by linarith [h'.pos c' hc'], by linarith⟩
      linarith [this.2]
    · by_contra hlt
      rw [not_le] at hlt
      have := (key (c.1 + c.2)).mpr ⟨by linarith [h.pos c hc], by linarith⟩
      linarith [this.2]
  · have hmem : cs.Pairwise (fun c d => c ∈ cs ∧ d ∈ cs) := List.pairwise_of_forall_mem_list (fun _ h1 _ h2 => ⟨h1, h2⟩)
    refine (h.separate.and hmem).imp ?_
    rintro c d ⟨hsep, hc, hd⟩ c' hc' ⟨x, z, hx, hz, hr⟩ ⟨y, z', hy, hz', hr'⟩
    have hyy := (h.twins d hd y hy y).mpr hy
    have hzz := (h'.twins c' hc' z' hz' z).mpr hz
    obtain ⟨k1, k2⟩ := hzz.reach hA (hyy.back hA hr')
    exact hsep _ _ hx ((h.twins d hd y hy _).mp k1) (hr.trans k2)

/-- The cylinders of the inverse are the cylinders. -/
theorem CylinderSystem.of_inv {A : AIET P} (hA : A.Valid) {cs : List (P × P)} (h : CylinderSystem A.inv cs) : CylinderSystem A cs where
  pos := h.pos
  twins c hc x hx y := by
    rw [← h.twins c hc x hx y]
    exact ⟨fun h => h.inv hA, fun h => h.inv hA.inv⟩
  separate := by
    have hmem : cs.Pairwise (fun c d => c ∈ cs ∧ d ∈ cs) := List.pairwise_of_forall_mem_list (fun _ h1 _ h2 => ⟨h1, h2⟩)
    refine (h.separate.and hmem).imp ?_
    rintro c d ⟨hsep, hc, hd⟩ x y hx hy hr
    have hxx : A.Twins x x := ((h.twins c hc x hx x).mpr hx).inv hA.inv
    exact hsep x y hx hy (hA.inv.reflTransGen_inv (hxx.back hA hr))

theorem Exhausts.of_inv {A : AIET P} (hA : A.Valid) {cs : List (P × P)} (h : Exhausts A.inv cs) : Exhausts A cs := by
  intro x hx
  have hxx : A.inv.Twins x x := (AIET.twins_self.mpr hx).inv hA
  obtain ⟨c, hc, y, h1, h2⟩ := h x hxx.periodic
  exact ⟨c, hc, y, hA.reflTransGen_inv (hxx.back hA.inv h1), h2⟩

/-- The pieces with a single interval. -/
def spans (pieces : List (P × AIET P)) : List (P × P) := pieces.filterMap (fun p => if p.2.top.length = 1 then some (p.1, p.2.total) else none)

theorem mem_spans {c : P × P} : c ∈ spans pieces ↔ ∃ p ∈ pieces, p.2.top.length = 1 ∧ c = (p.1, p.2.total) := by
  unfold spans
  rw [List.mem_filterMap]
  constructor
  · rintro ⟨p, hp, h⟩
    split at h
    · rename_i hl
      simp only [Option.some.injEq] at h
      exact ⟨p, hp, hl, h.symm⟩
    · cases h
  · rintro ⟨p, hp, hl, rfl⟩
    exact ⟨p, hp, by rw [if_pos hl]⟩

theorem Track.system (h : Track A₀ pieces m R) : CylinderSystem A₀ (spans pieces) where
  pos c hc := by
    obtain ⟨p, hp, -, rfl⟩ := mem_spans.mp hc
    exact (h.cover.valid p hp).total_pos
  twins c hc x hx y := by
    obtain ⟨p, hp, hl, rfl⟩ := mem_spans.mp hc
    exact h.twins_iff hp hl hx y
  separate := by
    refine List.Pairwise.filterMap _ ?_ h.cover.separate
    intro p q hpq c hc d hd x y hx hy
    simp only [Option.ite_none_right_eq_some, Option.some.injEq] at hc hd
    obtain ⟨-, rfl⟩ := hc
    obtain ⟨-, rfl⟩ := hd
    exact (hpq x y hx hy).1

theorem Track.exhausts (h : Track A₀ pieces m R) (hs : ∀ p ∈ pieces, p.2.top.length = 1 ∨ ¬ ∃ y, Periodic p.2.Maps y) : Exhausts A₀ (spans pieces) := by
  intro x hx
  obtain ⟨h0, h1⟩ := (AIET.twins_self.mpr hx).dom h.base
  obtain ⟨p, hp, y, h2, h3⟩ := h.cover.meets x h0 h1
  rcases hs p hp with hl | hn
  · exact ⟨_, mem_spans.mpr ⟨p, hp, hl, rfl⟩, y, h2, h3⟩
  · exfalso
    have hy : Relation.TransGen A₀.Maps y y := transGen_of_reflTransGen_cycle h.base.maps_fun hx h2
    refine hn ⟨y - p.1, ?_⟩
    exact h.cover.transGen_piece (o := p.1) (A := p.2) hp h3 h3 hy

end Verif
