import Verif.Proofs.Minimal
import Verif.Props.Unique
import Verif.Props.Independent

/-!
# C75: without saddle connections every orbit is dense

A complete decomposition of an IET is a decomposition into cylinders and minimal components.
-/

namespace Verif

set_option linter.unusedSectionVars false

variable {σ T ε : Type} [CommRing T] [LinearOrder T] [IsStrictOrderedRing T] {O : LengthsOps σ T} {d : ℕ} {c : T →+ (Fin d → ℚ)}
variable {P : Type} [CommRing P] [LinearOrder P] [IsStrictOrderedRing P]

theorem Periodic.finite {X : Type} {R : X → X → Prop} (hR : ∀ x y z, R x y → R x z → y = z) {x : X} (h : Periodic R x) :
    ∃ l : List X, x ∈ l ∧ ∀ y, Relation.ReflTransGen R x y → y ∈ l := by
  have key : ∀ {y}, Relation.ReflTransGen R y x → ∃ l : List X, y ∈ l ∧ ∀ a ∈ l, ∀ b, R a b → b ∈ l ∨ a = x := by
    intro y hy
    induction hy using Relation.ReflTransGen.head_induction_on with
    | refl => exact ⟨[x], by simp, fun a ha _ _ => .inr (by simpa using ha)⟩
    | @head y y' h1 _ ih =>
      obtain ⟨l, h2, h3⟩ := ih
      refine ⟨y :: l, by simp, fun a ha b hab => ?_⟩
      rcases List.mem_cons.mp ha with rfl | ha
      · exact .inl (by rw [hR _ _ _ hab h1]; exact List.mem_cons_of_mem _ h2)
      · exact (h3 a ha b hab).imp_left (List.mem_cons_of_mem _)
  obtain ⟨y, h1, h2⟩ := Relation.TransGen.head'_iff.mp h
  obtain ⟨l, h3, h4⟩ := key h2
  refine ⟨x :: l, by simp, fun z hz => ?_⟩
  induction hz with
  | refl => simp
  | @tail a b _ hab ih =>
    rcases List.mem_cons.mp ih with rfl | ih
    · rw [hR _ _ _ hab h1]; exact List.mem_cons_of_mem _ h3
    · rcases h4 a ih b hab with h5 | rfl
      · exact List.mem_cons_of_mem _ h5
      · rw [hR _ _ _ hab h1]; exact List.mem_cons_of_mem _ h3

theorem AIET.minimal_of_free [Archimedean P] {A : AIET T} (hA : A.Valid) {ι : T →+ P} (hι : StrictMono ι) (h : ¬ A.HasConnection) (hlen : A.top.length ≠ 1) :
    (A.map ι).Minimal := by
  refine AIET.Free.minimal (hA.map hι) ?_ hlen
  intro n e d hj
  obtain ⟨e', d', hj'⟩ := hj.of_map hι
  exact (AIET.free_iff hA).mpr h _ _ _ hj'

/-- **C75** When `boshernitzanNoSaddleConnection()` is true, then every orbit visits every open interval, forwards and backwards. -/
theorem C75_boshernitzan [Archimedean P] (H : LawfulLengths O c ε) {L : PPL} (hL : L.Lawful) {E : IET T} {s : σ} (h : H.Ok E s)
    (hr : E.boshernitzanNoSaddleConnection L O s = .ok true) {ι : T →+ P} (hι : StrictMono ι) : ((H.abs E s).map ι).Minimal := by
  refine AIET.minimal_of_free h.valid hι ?_ ?_
  · rintro ⟨t, ht, b, hb, n, hn⟩
    exact C21_keane H hL h hr (ι := AddMonoidHom.id T) (fun _ _ h => h) ht hb n hn
  · intro hlen
    unfold IET.boshernitzanNoSaddleConnection at hr
    rw [if_pos (by simp only [LawfulLengths.abs] at hlen; simp [IET.size, hlen])] at hr
    cases hr

/-- **C75** When `induce()` keeps reporting LIMIT_REACHED (or WITHOUT_PERIODIC_TRAJECTORY_BOSHERNITZAN) for larger and larger limits, then every orbit visits every
open interval. -/
theorem C75_induce_never [Archimedean T] [Archimedean P] (H : LawfulLengths O c ε) {L : PPL} (hL : L.Lawful) {w : World σ T} (h : Reachable H L w) {E : IET T}
    (hE : E ∈ w.pieces) (hnever : ∀ N : ℕ, ∃ limit : ℕ, N ≤ limit ∧ ∃ fuel step E' s', E.induce L O fuel limit w.lengths = .ok (step, E', s') ∧
      (step.result = .limitReached ∨ step.result = .withoutPeriodicTrajectoryBoshernitzan)) {ι : T →+ P} (hι : StrictMono ι) :
    ((H.abs E w.lengths).map ι).Minimal := by
  obtain ⟨h1, h2⟩ := C73_induce_never H hL h hE hnever hι
  have hok := ((h.ok hL).good E hE).ok
  refine AIET.minimal_of_free hok.valid hι h1 (fun hlen => h2 ?_)
  exact single_periodic (hok.valid.map hι) hlen

/-- **C75** When a component of a decomposition has no saddle connection, then it has a single interval or every orbit visits every open interval. -/
theorem C75_component [Archimedean P] (H : LawfulLengths O c ε) {L : PPL} (hL : L.Lawful) {E : IET T} {s : σ} (hE : H.Ok E s) {D : Decomp σ T}
    {steps : List DStep} (h : DReach L O E s D steps) {ι : T →+ P} (hι : StrictMono ι) {x : Comp T} (hx : x ∈ D.comps)
    (hcon : ¬ (H.abs x.iet D.lengths.inner).HasConnection) : x.iet.top.length = 1 ∨ ((H.abs x.iet D.lengths.inner).map ι).Minimal := by
  by_cases hlen : x.iet.top.length = 1
  · exact .inl hlen
  · exact .inr (AIET.minimal_of_free (h.valid hL H hE x hx) hι hcon hlen)

/-- **C75** The orbits of the original IET when the decomposition is complete: Each of them meets exactly one of the components.  When this component has a single
interval then the orbit is periodic, otherwise it gets arbitrarily close, from the right, to all points whose orbits meet the same component. -/
theorem C75_orbits [Archimedean P] (H : LawfulLengths O c ε) {L : PPL} (hL : L.Lawful) {E : IET T} {s : σ} (hE : H.Ok E s) {D : Decomp σ T}
    {steps : List DStep} (h : DReach L O E s D steps) (hD : D.Complete H) {ι : T →+ P} (hι : StrictMono ι) :
    ∃ os : List P, os.length = D.comps.length ∧
      (∀ x, 0 ≤ x → x < ((H.abs E s).map ι).total →
        ∃ p ∈ os.zip (D.comps.map (fun x => (H.abs x.iet D.lengths.inner).map ι)), Meets ((H.abs E s).map ι) p x) ∧
      (os.zip (D.comps.map (fun x => (H.abs x.iet D.lengths.inner).map ι))).Pairwise
        (fun p q => ∀ x, ¬ (Meets ((H.abs E s).map ι) p x ∧ Meets ((H.abs E s).map ι) q x)) ∧
      ∀ p ∈ os.zip (D.comps.map (fun x => (H.abs x.iet D.lengths.inner).map ι)),
        (p.2.top.length = 1 → ∀ x, Meets ((H.abs E s).map ι) p x → Periodic ((H.abs E s).map ι).Maps x) ∧
        (p.2.top.length ≠ 1 → ∀ x z v, Meets ((H.abs E s).map ι) p x → Meets ((H.abs E s).map ι) p z → z < v →
          ∃ y, Relation.ReflTransGen ((H.abs E s).map ι).Maps x y ∧ z < y ∧ y < v) := by
  obtain ⟨os, h1, h2⟩ := C36_covers H hL hE h hι
  have hv := hE.valid.map hι
  refine ⟨os, h1, h2.meets, h2.separate.imp ?_, ?_⟩
  · rintro p q hpq x ⟨⟨y, g1, g2⟩, y', g3, g4⟩
    have hfun : ∀ a b c, ((H.abs E s).map ι).Maps a b → ((H.abs E s).map ι).Maps a c → b = c := fun a b c => hv.maps_unique
    rcases Relation.ReflTransGen.total_of_right_unique (fun a b c => hfun a b c) g1 g3 with g5 | g5
    · exact (hpq y y' g2 g4).1 g5
    · exact (hpq y y' g2 g4).2 g5
  · intro p hp
    have hpv := h2.valid p hp
    refine ⟨fun hlen x hx => periodic_of_meets hv hpv (h2.maps p hp) hlen hx, fun hlen x z v hx hz hzv => ?_⟩
    refine AIET.Minimal.meets hv hpv (h2.maps p hp) ?_ hx hz hzv
    obtain ⟨o, A⟩ := p
    have := (List.of_mem_zip hp).2
    obtain ⟨y, hy, rfl⟩ := List.mem_map.mp this
    exact (C75_component H hL hE h hι hy (hD y hy)).resolve_left hlen

/-- **C75** Every IET has a decomposition into cylinders and minimal components, and the code can find it: from every state of a decomposition one can get, by
finitely many further steps with limits, to components that have a single interval or for which every orbit visits every open interval. -/
theorem C75_attainable [Archimedean T] [Archimedean P] (H : LawfulLengths O c ε) {L : PPL} (hL : L.Lawful) {E : IET T} {s : σ} (hE : H.Ok E s)
    {D : Decomp σ T} {steps : List DStep} (h : DReach L O E s D steps) {ι : T →+ P} (hι : StrictMono ι) :
    ∃ D', Continues L O D D' ∧ ∀ x ∈ D'.comps, x.iet.top.length = 1 ∨ ((H.abs x.iet D'.lengths.inner).map ι).Minimal := by
  obtain ⟨D', h1, h2⟩ := C74_attainable H hL hE h
  obtain ⟨steps', h3⟩ := h1.reach h
  exact ⟨D', h1, fun x hx => C75_component H hL hE h3 hι hx (h2 x hx)⟩

/-- **C75** The two cases exclude each other: when every orbit visits every open interval then no orbit is periodic. -/
theorem C75_exclusive {A : AIET P} (hA : A.Valid) (h : A.Minimal) : ¬ ∃ x, Periodic A.Maps x := by
  rintro ⟨x, hx⟩
  obtain ⟨l, h1, h2⟩ := Periodic.finite (R := A.Maps) (fun _ _ _ h h' => hA.maps_unique h h') hx
  have hd := hA.transGen_dom hx
  -- No point of the orbit is between zero and the smallest positive point of the orbit.
  obtain ⟨v, g1, g2, g3⟩ : ∃ v, 0 < v ∧ v ≤ A.total ∧ ∀ y ∈ l, 0 < y → v ≤ y := by
    clear h1 h2
    induction l with
    | nil => exact ⟨A.total, hA.total_pos, le_refl _, by simp⟩
    | cons a l ih =>
      obtain ⟨v, g1, g2, g3⟩ := ih
      by_cases ha : 0 < a
      · refine ⟨min v a, lt_min g1 ha, (min_le_left _ _).trans g2, fun y hy hy' => ?_⟩
        rcases List.mem_cons.mp hy with rfl | hy
        · exact min_le_right _ _
        · exact (min_le_left _ _).trans (g3 y hy hy')
      · refine ⟨v, g1, g2, fun y hy hy' => ?_⟩
        rcases List.mem_cons.mp hy with rfl | hy
        · exact absurd hy' ha
        · exact g3 y hy hy'
  obtain ⟨⟨y, k1, k2, k3⟩, -⟩ := h x 0 v hd.1 hd.2 (le_refl _) g1 g2
  exact absurd (g3 y (h2 y k1) k2) (not_le.mpr k3)

/-! ### An example: the rotation with lengths `1` and `√2` -/

open Examples in
example : ((hQ2.abs q2RotIET q2RotState).map (AddMonoidHom.id Q2)).Minimal :=
  C75_boshernitzan hQ2 PPL.ideal_lawful q2Rot_ok
    (C69_noSaddleConnection hQ2 q2_faithful PPL.ideal_lawful q2Rot_ok (by decide) q2Rot_irreducible q2Rot_independent) (fun _ _ h => h)

open Examples in
/-- With lengths in a cubic field: all real orbits of the components are periodic or dense once the decomposition is complete. -/
example : ∃ D, Decomp.make (SLengths.ops cubicArith) connIET connState = .ok D ∧ ∃ D', Continues PPL.ideal (SLengths.ops cubicArith) D D' ∧
    ∀ x ∈ D'.comps, x.iet.top.length = 1 ∨ ((hCubic.abs x.iet D'.lengths.inner).map (Cubic.toReal : Cubic →+ ℝ)).Minimal := by
  obtain ⟨D, h1, -⟩ := Decomp.make_spec hCubic (ι := AddMonoidHom.id Cubic) (fun _ _ h => h) conn_ok
  exact ⟨D, h1, C75_attainable hCubic PPL.ideal_lawful conn_ok (.init h1) Cubic.toReal_strictMono⟩

end Verif
