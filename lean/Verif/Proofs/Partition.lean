import Verif.Proofs.Itinerary

/-!
# The sets of orbits that meet the components

When the components are cylinders and minimal, then they are determined by the dynamics.
-/

namespace Verif

set_option linter.unusedSectionVars false

variable {P : Type} [CommRing P] [LinearOrder P] [IsStrictOrderedRing P]

/-- A piece of the inverse transformation. -/
def invPiece (p : P × AIET P) : P × AIET P := (p.1, p.2.inv)

theorem inside_invPiece {p : P × AIET P} (hp : p.2.Valid) {x : P} : Inside (invPiece p) x ↔ Inside p x := by
  simp only [Inside, invPiece, hp.total_inv]

theorem iter_split {R : P → P → Prop} (hR : ∀ x y z, R x y → R x z → y = z) : ∀ {n m : ℕ} {x y z : P}, n ≤ m → Iter R n x y → Iter R m x z →
    Relation.ReflTransGen R y z
  | 0, m, x, y, z, _, h, h' => by cases h; exact h'.reach
  | n + 1, 0, _, _, _, hn, _, _ => by omega
  | n + 1, m + 1, x, y, z, hn, ⟨u, h1, h2⟩, ⟨v, h3, h4⟩ => by
    obtain rfl := hR _ _ _ h1 h3
    exact iter_split hR (by omega) h2 h4

/-- The first return map of the inverse is the inverse of the first return map. -/
theorem AIET.Valid.maps_invPiece {A : AIET P} (hA : A.Valid) {p : P × AIET P} (hp : p.2.Valid)
    (h : ∀ x y, 0 ≤ x → x < p.2.total → (p.2.Maps x y ↔ FirstReturn A.Maps (Inside p) (x + p.1) (y + p.1))) :
    ∀ x y, 0 ≤ x → x < p.2.inv.total → (p.2.inv.Maps x y ↔ FirstReturn A.inv.Maps (Inside (invPiece p)) (x + p.1) (y + p.1)) := by
  have hS : Inside (invPiece p) = Inside p := by funext x; exact propext (inside_invPiece hp)
  intro x y h0 h1
  rw [hp.total_inv] at h1
  rw [hS, hp.maps_inv]
  constructor
  · intro hm
    have hd := hp.maps_dom hm
    have := (h y x hd.1 hd.2).mp hm
    exact this.flip (fun x y hxy => hA.maps_inv.mpr hxy) ⟨by linarith [hd.1], by linarith [hd.2]⟩
  · intro hm
    obtain ⟨g0, g1⟩ := hm.mem
    refine (h y x (by linarith) (by linarith)).mpr ?_
    exact hm.flip (fun x y hxy => hA.maps_inv.mp hxy) ⟨by linarith, by linarith⟩

/-- When an orbit meets a piece backwards, then it also meets it forwards. -/
theorem Covers.meets_inv {A : AIET P} (hA : A.Valid) {p : P × AIET P} (hp : p.2.Valid)
    (h : ∀ x y, 0 ≤ x → x < p.2.total → (p.2.Maps x y ↔ FirstReturn A.Maps (Inside p) (x + p.1) (y + p.1))) {x : P} (hm : Meets A.inv (invPiece p) x) :
    Meets A p x := by
  obtain ⟨y, h1, h2⟩ := hm
  rw [inside_invPiece hp] at h2
  obtain ⟨n, hn⟩ := exists_iter_of_reach (hA.reflTransGen_inv h1)
  obtain ⟨z, m, g1, g2, g3, g4⟩ := exists_far hp h n (x := y - p.1) (by linarith [h2.1]) (by linarith [h2.2])
  rw [sub_add_cancel] at g4
  exact ⟨z + p.1, iter_split hA.maps_fun g3 hn g4, by linarith, by linarith⟩

theorem Covers.inv {A : AIET P} (hA : A.Valid) {pieces : List (P × AIET P)} (h : Covers A pieces) : Covers A.inv (pieces.map invPiece) where
  valid := by
    simp only [List.mem_map, forall_exists_index, and_imp, forall_apply_eq_imp_iff₂]
    exact fun p hp => (h.valid p hp).inv
  inside := by
    simp only [List.mem_map, forall_exists_index, and_imp, forall_apply_eq_imp_iff₂]
    intro p hp
    have := h.inside p hp
    simp only [invPiece]
    rwa [hA.total_inv, (h.valid p hp).total_inv]
  maps := by
    simp only [List.mem_map, forall_exists_index, and_imp, forall_apply_eq_imp_iff₂]
    exact fun p hp => hA.maps_invPiece (h.valid p hp) (h.maps p hp)
  meets := by
    intro x h0 h1
    rw [hA.total_inv] at h1
    obtain ⟨p, hp, hm⟩ := h.meets x h0 h1
    refine ⟨invPiece p, List.mem_map_of_mem hp, ?_⟩
    exact Covers.meets_inv (A := A.inv) (p := invPiece p) hA.inv (h.valid p hp).inv (hA.maps_invPiece (h.valid p hp) (h.maps p hp)) hm
  separate := by
    rw [List.pairwise_map]
    have hmem : pieces.Pairwise (fun c d => c ∈ pieces ∧ d ∈ pieces) := List.pairwise_of_forall_mem_list (fun _ h1 _ h2 => ⟨h1, h2⟩)
    refine (h.separate.and hmem).imp ?_
    rintro p q ⟨hs, hp, hq⟩ x y hx hy
    rw [inside_invPiece (h.valid p hp)] at hx
    rw [inside_invPiece (h.valid q hq)] at hy
    exact ⟨fun hr => (hs x y hx hy).2 (hA.reflTransGen_inv hr), fun hr => (hs x y hx hy).1 (hA.reflTransGen_inv hr)⟩

/-- The pieces are cylinders and minimal. -/
structure Parts (A : AIET P) (pieces : List (P × AIET P)) : Prop where
  cover : Covers A pieces
  twins : ∀ p ∈ pieces, ∀ x y, A.Twins x y → Meets A p x → Meets A p y
  single : ∀ p ∈ pieces, p.2.top.length = 1 → ∀ x y, Inside p x → Inside p y → A.Twins x y
  minimal : ∀ p ∈ pieces, p.2.top.length ≠ 1 → p.2.Minimal
  aperiodic : ∀ p ∈ pieces, p.2.top.length ≠ 1 → ¬ ∃ x, Periodic p.2.Maps x

theorem AIET.Minimal.inv {A : AIET P} (hA : A.Valid) (h : A.Minimal) : A.inv.Minimal := by
  intro x u v h0 h1 h2 h3 h4
  rw [hA.total_inv] at h1 h4
  obtain ⟨⟨y, h5, h6⟩, z, h7, h8⟩ := h x u v h0 h1 h2 h3 h4
  exact ⟨⟨z, hA.inv.reflTransGen_inv h7, h8⟩, y, hA.inv.reflTransGen_inv h5, h6⟩

theorem AIET.Valid.periodic_inv {A : AIET P} (hA : A.Valid) {x : P} (h : Periodic A.inv.Maps x) : Periodic A.Maps x :=
  ((AIET.twins_self.mpr h).inv hA.inv).periodic

theorem Parts.inv {A : AIET P} (hA : A.Valid) {pieces : List (P × AIET P)} (h : Parts A pieces) : Parts A.inv (pieces.map invPiece) where
  cover := h.cover.inv hA
  twins := by
    simp only [List.mem_map, forall_exists_index, and_imp, forall_apply_eq_imp_iff₂]
    intro p hp x y hxy hm
    have hv := h.cover.valid p hp
    have hi := hA.maps_invPiece hv (h.cover.maps p hp)
    exact Covers.meets_inv (A := A.inv) (p := invPiece p) hA.inv hv.inv hi
      (h.twins p hp x y (hxy.inv hA.inv) (Covers.meets_inv hA hv (h.cover.maps p hp) hm))
  single := by
    simp only [List.mem_map, forall_exists_index, and_imp, forall_apply_eq_imp_iff₂]
    intro p hp hl x y hx hy
    have hv := h.cover.valid p hp
    rw [inside_invPiece hv] at hx hy
    have hl' : p.2.top.length = 1 := by rw [← hv.perm.length_eq]; exact hl
    exact (h.single p hp hl' x y hx hy).inv hA
  minimal := by
    simp only [List.mem_map, forall_exists_index, and_imp, forall_apply_eq_imp_iff₂]
    intro p hp hl
    have hv := h.cover.valid p hp
    exact (h.minimal p hp (by rw [← hv.perm.length_eq]; exact hl)).inv hv
  aperiodic := by
    simp only [List.mem_map, forall_exists_index, and_imp, forall_apply_eq_imp_iff₂]
    rintro p hp hl ⟨x, hx⟩
    have hv := h.cover.valid p hp
    exact h.aperiodic p hp (by rw [← hv.perm.length_eq]; exact hl) ⟨x, hv.periodic_inv hx⟩

/-- The orbits that meet a piece. -/
theorem Parts.le {A : AIET P} (hA : A.Valid) {ps qs : List (P × AIET P)} (hp : Parts A ps) (hq : Parts A qs) {p : P × AIET P} (hmem : p ∈ ps) :
    ∃ q ∈ qs, ∀ x, Meets A p x → Meets A q x := by
  have hv := hp.cover.valid p hmem
  have hpos := hv.total_pos
  obtain ⟨i0, i1⟩ := hp.cover.inside p hmem
  have hin : Inside p p.1 := ⟨le_refl _, by linarith⟩
  obtain ⟨q, hqm, hm⟩ := hq.cover.meets p.1 i0 (by linarith)
  refine ⟨q, hqm, fun x hx => ?_⟩
  by_cases hl : p.2.top.length = 1
  · obtain ⟨y, h1, h2⟩ := hx
    obtain ⟨z, h3, h4⟩ := hq.twins q hqm _ _ (hp.single p hmem hl _ _ hin h2) hm
    exact ⟨z, h1.trans h3, h4⟩
  · -- A small interval meets the other piece.
    obtain ⟨y, h1, h2, h3⟩ := hm
    obtain ⟨k, hk⟩ := exists_iter_of_reach h1
    obtain ⟨η, h4, h5⟩ := hk.right
    obtain ⟨z, h6, h7, h8⟩ := AIET.Minimal.meets hA hv (hp.cover.maps p hmem) (hp.minimal p hmem hl) hx ⟨p.1, .refl, hin⟩
      (v := min (p.1 + η) (p.1 + (q.1 + q.2.total - y))) (lt_min (by linarith) (by linarith))
    obtain ⟨h9, h10⟩ := lt_min_iff.mp h8
    have h11 := h5 (z - p.1) (by linarith) (by linarith)
    rw [add_sub_cancel] at h11
    exact ⟨_, h6.trans h11.reach, by linarith, by linarith⟩

/-- The pieces are determined by the dynamics. -/
theorem Parts.eq {A : AIET P} (hA : A.Valid) {ps qs : List (P × AIET P)} (hp : Parts A ps) (hq : Parts A qs) {p : P × AIET P} (hmem : p ∈ ps) :
    ∃ q ∈ qs, (∀ x, Meets A p x ↔ Meets A q x) ∧ (p.2.top.length = 1 ↔ q.2.top.length = 1) := by
  obtain ⟨q, hqm, h1⟩ := hp.le hA hq hmem
  obtain ⟨p', hpm, h2⟩ := hq.le hA hp hqm
  have hin : Meets A p p.1 := ⟨p.1, .refl, le_refl _, by linarith [(hp.cover.valid p hmem).total_pos]⟩
  obtain rfl := hp.cover.meets_unique hA hmem hpm hin (h2 _ (h1 _ hin))
  have hiff : ∀ x, Meets A p x ↔ Meets A q x := fun x => ⟨h1 x, h2 x⟩
  have key : ∀ {ps qs : List (P × AIET P)}, Parts A ps → Parts A qs → ∀ {p q}, p ∈ ps → q ∈ qs → (∀ x, Meets A p x ↔ Meets A q x) →
      p.2.top.length = 1 → q.2.top.length = 1 := by
    intro ps qs hp hq p q hmem hqm hiff hl
    by_contra hl'
    have hin : Meets A p p.1 := ⟨p.1, .refl, le_refl _, by linarith [(hp.cover.valid p hmem).total_pos]⟩
    have hper := periodic_of_meets hA (hp.cover.valid p hmem) (hp.cover.maps p hmem) hl hin
    obtain ⟨y, h3, h4⟩ := (hiff _).mp hin
    have hy : Relation.TransGen A.Maps y y := transGen_of_reflTransGen_cycle hA.maps_fun hper h3
    exact hq.aperiodic q hqm hl' ⟨y - q.1, hq.cover.transGen_piece (o := q.1) (A := q.2) hqm h4 h4 hy⟩
  exact ⟨q, hqm, hiff, key hp hq hmem hqm hiff, key hq hp hqm hmem (fun x => (hiff x).symm)⟩

theorem Parts.length_le {A : AIET P} (hA : A.Valid) {ps qs : List (P × AIET P)} (hp : Parts A ps) (hq : Parts A qs) : ps.length ≤ qs.length := by
  classical
  have hin : ∀ p ∈ ps, Meets A p p.1 := fun p hp' => ⟨p.1, .refl, le_refl _, by linarith [(hp.cover.valid p hp').total_pos]⟩
  have hnd : ps.Nodup := by
    have hmem : ps.Pairwise (fun c d => c ∈ ps ∧ d ∈ ps) := List.pairwise_of_forall_mem_list (fun _ h1 _ h2 => ⟨h1, h2⟩)
    refine (hp.cover.separate.and hmem).imp ?_
    rintro p q ⟨hs, h1, -⟩ rfl
    have : Inside p p.1 := ⟨le_refl _, by linarith [(hp.cover.valid p h1).total_pos]⟩
    exact (hs p.1 p.1 this this).1 .refl
  have hex : ∀ p : {p // p ∈ ps}, ∃ q ∈ qs, ∀ x, Meets A p.1 x ↔ Meets A q x := fun p => by
    obtain ⟨q, h1, h2, -⟩ := hp.eq hA hq p.2
    exact ⟨q, h1, h2⟩
  choose f hf1 hf2 using hex
  have hinj : Function.Injective f := by
    rintro ⟨p, h1⟩ ⟨p', h2⟩ he
    have h3 : Meets A p' p.1 := (hf2 ⟨p', h2⟩ _).mpr (he ▸ (hf2 ⟨p, h1⟩ _).mp (hin p h1))
    exact Subtype.ext (hp.cover.meets_unique hA h1 h2 (hin p h1) h3)
  have h1 : (ps.attach.map f).Nodup := (List.nodup_attach.mpr hnd).map hinj
  have h2 := (List.subperm_of_subset h1 (l₂ := qs) (by
    intro q hq
    obtain ⟨p, -, rfl⟩ := List.mem_map.mp hq
    exact hf1 p)).length_le
  simpa using h2

end Verif
