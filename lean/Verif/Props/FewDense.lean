import Verif.Props.FewUnique
import Verif.Props.Minimal

/-!
# C113: Components without periodic points are minimal when there are at most three intervals
-/

namespace Verif

set_option linter.unusedSectionVars false

variable {σ T ε P : Type} [CommRing T] [LinearOrder T] [IsStrictOrderedRing T] [Field P] [LinearOrder P]
  [IsStrictOrderedRing P] {O : LengthsOps σ T} {d : ℕ} {c : T →+ (Fin d → ℚ)}

/-- Every forward orbit visits every interval when there is no periodic point. -/
theorem few_dense [Archimedean T] [Archimedean P] (H : LawfulLengths O c ε) {E : IET T} {s : σ} (hE : H.Ok E s) (h3 : E.top.length ≤ 3)
    (hp : ¬ ∃ x, Periodic (H.abs E s).Maps x) {ι : T →+ P} (hι : StrictMono ι) {x z v : P} (hx : 0 ≤ x) (hx' : x < ((H.abs E s).map ι).total)
    (hz : 0 ≤ z) (hz' : z < ((H.abs E s).map ι).total) (hv : z < v) :
    ∃ y, Relation.ReflTransGen ((H.abs E s).map ι).Maps x y ∧ z < y ∧ y < v := by
  obtain ⟨D, h1, -⟩ := Decomp.make_spec H (ι := AddMonoidHom.id T) (fun _ _ h => h) hE
  obtain ⟨D', h2, h4⟩ := C74_attainable H PPL.ideal_lawful hE (.init h1)
  obtain ⟨steps, h5⟩ := h2.reach (.init h1)
  have hone : ∀ x ∈ D'.comps, 1 < x.iet.top.length := by
    intro x hx
    have hinv := h5.inv PPL.ideal_lawful H (ι := AddMonoidHom.id T) (fun _ _ h => h) hE
    have hvx : (H.abs x.iet D'.lengths.inner).Valid := (hinv.good x hx).ok.valid
    have q : x.iet.top.length ≠ 1 := fun e => hp
      ((C36_periodic H PPL.ideal_lawful hE h5 (ι := AddMonoidHom.id T) (fun _ _ h => h)).mpr ⟨x, hx, single_periodic hvx e⟩)
    have := List.length_pos_of_ne_nil (h5.labels H PPL.ideal_lawful hE hx).2.1
    omega
  obtain ⟨w, hw⟩ : ∃ w, D'.comps = [w] := by
    have hcount := (h5.counts H PPL.ideal_lawful hE).1
    have hsum := h5.sum_length H PPL.ideal_lawful hE
    match hD : D'.comps with
    | [] => rw [hD] at hcount; simp at hcount
    | [w] => exact ⟨w, rfl⟩
    | w :: w' :: rest =>
      have := hone w (by simp [hD])
      have := hone w' (by simp [hD])
      rw [hD] at hsum
      simp only [List.map_cons, List.sum_cons] at hsum
      omega
  obtain ⟨os, g1, g2, -, g3⟩ := C75_orbits H PPL.ideal_lawful hE h5 h4 hι
  have hw1 := hone w (by simp [hw])
  rw [hw] at g1 g2 g3
  match os, g1 with
  | [o], _ =>
    simp only [List.map_cons, List.map_nil, List.zip_cons_cons, List.zip_nil_right, List.mem_singleton, exists_eq_left, forall_eq] at g2 g3
    exact g3.2 (by show w.iet.top.length ≠ 1; omega) x z v (g2 x hx hx') (g2 z hz hz') hv

/-- **C113** When an IET with at most three intervals has no periodic point then every orbit visits every open interval, forwards and backwards. -/
theorem C113_minimal [Archimedean T] [Archimedean P] (H : LawfulLengths O c ε) {E : IET T} {s : σ} (hE : H.Ok E s) (h3 : E.top.length ≤ 3)
    (hp : ¬ ∃ x, Periodic (H.abs E s).Maps x) {ι : T →+ P} (hι : StrictMono ι) : ((H.abs E s).map ι).Minimal := by
  intro x u v hx hx' hu huv hv
  refine ⟨few_dense H hE h3 hp hι hx hx' hu (huv.trans_le hv) huv, ?_⟩
  have hval := hE.valid.map hι
  have htot : ((H.abs E.swap s).map ι).total = ((H.abs E s).map ι).total := hval.total_inv
  have h3' : E.swap.top.length ≤ 3 := by
    have : E.bottom.length = E.top.length := hE.valid.perm.length_eq
    show E.bottom.length ≤ 3
    omega
  have hp' : ¬ ∃ x, Periodic (H.abs E.swap s).Maps x := by
    rintro ⟨y, hy⟩
    refine hp ⟨y, ?_⟩
    have : Relation.TransGen (Function.swap (H.abs E s).Maps) y y := Relation.TransGen.mono (fun a b hab => (hE.valid.maps_inv).mp hab) _ _ hy
    exact Relation.transGen_swap.mp this
  obtain ⟨y, q1, q2⟩ := few_dense H hE.swap h3' hp' hι hx (htot ▸ hx') hu (htot ▸ huv.trans_le hv) huv
  refine ⟨y, ?_, q2⟩
  have : Relation.ReflTransGen (Function.swap ((H.abs E s).map ι).Maps) x y := 
    Relation.ReflTransGen.mono (fun a b hab => hval.maps_inv.mp hab) _ _ q1
  exact Relation.reflTransGen_swap.mp this

/-- **C113** When `decompose()` returned true for an IET with at most three intervals then every component is known to be a cylinder and has a single interval, or
it is known to be without periodic trajectories and all of its orbits visit every open interval. -/
theorem C113_decompose [Archimedean T] [Archimedean P] (H : LawfulLengths O c ε) (hc : ∀ x, c x = 0 → x = 0) {L : PPL} (hL : L.Lawful) {E : IET T} {s : σ}
    (hE : H.Ok E s) (h3 : E.top.length ≤ 3) {D D' : Decomp σ T} {steps : List DStep} (h : DReach L O E s D steps) {limit : ℤ} {fuel : ℕ}
    (hr : D.decompose L O Decomp.defaultTarget limit fuel = .ok (true, D')) {ι : T →+* P} (hι : StrictMono ι) :
    ∀ x ∈ D'.comps, (x.cylinder = some true ∧ x.iet.top.length = 1) ∨
      (x.withoutPeriodicTrajectory = some true ∧ ((H.abs x.iet D'.lengths.inner).map ι).Minimal) := by
  obtain ⟨steps', h', -, -⟩ := C38_target H hL hE h hr
  have hinv := h'.inv hL H (ι := AddMonoidHom.id T) (fun _ _ h => h) hE
  intro x hx
  rcases (C111_decompose H hc hL hE h3 h hr hι).1 x hx with ⟨q, -, -⟩ | ⟨-, q, q'⟩
  · exact .inl ⟨q, (hinv.flags x hx).cylinder q⟩
  · exact .inr ⟨q, C113_minimal (LWC.lawful H) (hinv.good x hx).ok (h'.few H hL hE h3 hx) (fun hy => q' (periodic_map (ι := (ι : T →+ P)) hι hy))
      (ι := (ι : T →+ P)) hι⟩

/-- **C113** The orbits of the original IET then: each of them meets one of the components.  When this component is a cylinder then the orbit is periodic, otherwise it is
not periodic and gets arbitrarily close, from the right, to all points whose orbits meet the same component. -/
theorem C113_orbits [Archimedean T] [Archimedean P] (H : LawfulLengths O c ε) (hc : ∀ x, c x = 0 → x = 0) {L : PPL} (hL : L.Lawful) {E : IET T} {s : σ}
    (hE : H.Ok E s) (h3 : E.top.length ≤ 3) {D D' : Decomp σ T} {steps : List DStep} (h : DReach L O E s D steps) {limit : ℤ} {fuel : ℕ}
    (hr : D.decompose L O Decomp.defaultTarget limit fuel = .ok (true, D')) {ι : T →+* P} (hι : StrictMono ι) :
    ∃ os : List P, os.length = D'.comps.length ∧
      (∀ y, 0 ≤ y → y < ((H.abs E s).map ι).total →
        ∃ q ∈ os.zip D'.comps, Meets ((H.abs E s).map ι) (q.1, (H.abs q.2.iet D'.lengths.inner).map ι) y) ∧
      ∀ q ∈ os.zip D'.comps,
        (q.2.cylinder = some true → ∀ y, Meets ((H.abs E s).map ι) (q.1, (H.abs q.2.iet D'.lengths.inner).map ι) y → Periodic ((H.abs E s).map ι).Maps y) ∧
        (q.2.cylinder ≠ some true → ∀ y, Meets ((H.abs E s).map ι) (q.1, (H.abs q.2.iet D'.lengths.inner).map ι) y →
          ¬ Periodic ((H.abs E s).map ι).Maps y ∧
          ∀ z v, Meets ((H.abs E s).map ι) (q.1, (H.abs q.2.iet D'.lengths.inner).map ι) z → z < v →
            ∃ w, Relation.ReflTransGen ((H.abs E s).map ι).Maps y w ∧ z < w ∧ w < v) := by
  have hι' : StrictMono (ι : T →+ P) := hι
  obtain ⟨steps', h', -, -⟩ := C38_target H hL hE h hr
  obtain ⟨os, h1, h2⟩ := C36_covers H hL hE h' hι'
  have hv := hE.valid.map hι'
  have hzip : ∀ q ∈ os.zip D'.comps, (q.1, (H.abs q.2.iet D'.lengths.inner).map (ι : T →+ P)) ∈
      os.zip (D'.comps.map (fun x => (H.abs x.iet D'.lengths.inner).map (ι : T →+ P))) := by
    intro q hq
    rw [List.zip_map_right]
    exact List.mem_map.mpr ⟨q, hq, rfl⟩
  refine ⟨os, h1, fun y y0 y1 => ?_, fun q hq => ?_⟩
  · obtain ⟨p, hp, hm⟩ := h2.meets y y0 y1
    rw [List.zip_map_right] at hp
    obtain ⟨q, hq, rfl⟩ := List.mem_map.mp hp
    exact ⟨q, hq, hm⟩
  · have hx := (List.of_mem_zip hq).2
    have hp := hzip q hq
    have hpv := h2.valid _ hp
    have hinv := h'.inv hL H (ι := AddMonoidHom.id T) (fun _ _ h => h) hE
    refine ⟨fun hcyl y hy => periodic_of_meets hv hpv (h2.maps _ hp) ((hinv.flags _ hx).cylinder hcyl) hy, fun hcyl y hy => ?_⟩
    have hmin := ((C113_decompose H hc hL hE h3 h hr hι q.2 hx).resolve_left (fun k => hcyl k.1)).2
    have hdense : ∀ y z v, Meets ((H.abs E s).map ι) (q.1, (H.abs q.2.iet D'.lengths.inner).map ι) y →
        Meets ((H.abs E s).map ι) (q.1, (H.abs q.2.iet D'.lengths.inner).map ι) z → z < v →
        ∃ w, Relation.ReflTransGen ((H.abs E s).map ι).Maps y w ∧ z < w ∧ w < v :=
      fun y z v hy hz hzv => AIET.Minimal.meets hv hpv (h2.maps _ hp) hmin hy hz hzv
    refine ⟨fun hper => ?_, fun z v hz hzv => hdense y z v hy hz hzv⟩
    obtain ⟨l, l1, l2⟩ := Periodic.finite (R := ((H.abs E s).map (ι : T →+ P)).Maps) (fun _ _ _ h h' => hv.maps_unique h h') hper
    have key : ∀ l : List P, ∃ v, y < v ∧ ∀ w ∈ l, y < w → v ≤ w := by
      intro l
      induction l with
      | nil => exact ⟨y + 1, by linarith, by simp⟩
      | cons a l ih =>
        obtain ⟨v, v1, v2⟩ := ih
        by_cases ha : y < a
        · exact ⟨min v a, lt_min v1 ha, fun w hw hyw => by
            rcases List.mem_cons.mp hw with rfl | hw
            · exact min_le_right _ _
            · exact (min_le_left _ _).trans (v2 w hw hyw)⟩
        · exact ⟨v, v1, fun w hw hyw => by
            rcases List.mem_cons.mp hw with rfl | hw
            · exact absurd hyw ha
            · exact v2 w hw hyw⟩
    obtain ⟨v, v1, v2⟩ := key l
    obtain ⟨w, w1, w2, w3⟩ := hdense y y v hy hy v1
    exact absurd (v2 w (l2 w w1) w2) (not_le.mpr w3)

open Examples in
/-- Lengths `α`, `1`, `α²` in a cubic field in reversed order: a call with limit zero returns true, and all real orbits are dense. -/
example : ∃ (D D' : Decomp (SLengths Cubic) Cubic) (x : Comp Cubic) (fuel : ℕ),
    Decomp.make (SLengths.ops cubicArith) (IET.fresh [0, 1, 2] [2, 1, 0]) cubicMinimal = .ok D ∧
    D.decompose PPL.ideal (SLengths.ops cubicArith) Decomp.defaultTarget 0 fuel = .ok (true, D') ∧ D'.comps = [x] ∧
    ((hCubic.abs x.iet D'.lengths.inner).map Cubic.toReal).Minimal := by
  obtain ⟨D, h1, -⟩ := Decomp.make_spec hCubic (ι := AddMonoidHom.id Cubic) (fun _ _ h => h) cubicMinimal_ok
  obtain ⟨F, D', x, h2, h3, -, -, h4⟩ := C108_decompose hCubic cubicCoef_injective PPL.ideal_lawful cubicMinimal_ok (by decide) cubicMinimal_aperiodic (.init h1)
    (limit := 0) (by omega)
  refine ⟨D, D', x, F, h1, h2 F le_rfl, h3, ?_⟩
  rcases C113_decompose hCubic cubicCoef_injective PPL.ideal_lawful cubicMinimal_ok (by decide) (.init h1) (h2 F le_rfl) Cubic.toReal_strictMono x
    (by simp [h3]) with ⟨-, q⟩ | ⟨-, q⟩
  · omega
  · exact q

end Verif
