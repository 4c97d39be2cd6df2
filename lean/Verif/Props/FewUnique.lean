import Verif.Props.FewExact
import Verif.Props.Itineraries

/-!
# C112: The cylinders of IETs with at most three intervals
-/

namespace Verif

set_option linter.unusedSectionVars false

variable {σ T ε P : Type} [CommRing T] [LinearOrder T] [IsStrictOrderedRing T] [Field P] [LinearOrder P]
  [IsStrictOrderedRing P] {O : LengthsOps σ T} {d : ℕ} {c : T →+ (Fin d → ℚ)}

/-- Once `decompose()` returned true, each component has a single interval or no periodic points. -/
theorem settled_few [Archimedean P] (H : LawfulLengths O c ε) (hc : ∀ x, c x = 0 → x = 0) {L : PPL} (hL : L.Lawful) {E : IET T} {s : σ}
    (hE : H.Ok E s) (h3 : E.top.length ≤ 3) {D D' : Decomp σ T} {steps : List DStep} (h : DReach L O E s D steps) {limit : ℤ} {fuel : ℕ}
    (hr : D.decompose L O Decomp.defaultTarget limit fuel = .ok (true, D')) {ι : T →+* P} (hι : StrictMono ι) : D'.Settled H := by
  obtain ⟨steps', h', -, -⟩ := C38_target H hL hE h hr
  have hinv := h'.inv hL H (ι := AddMonoidHom.id T) (fun _ _ h => h) hE
  intro x hx
  rcases (C111_decompose H hc hL hE h3 h hr hι).1 x hx with ⟨q, -, -⟩ | ⟨-, -, q⟩
  · exact .inl ((hinv.flags x hx).cylinder q)
  · exact .inr (fun hy => q (periodic_map (ι := (ι : T →+ P)) hι hy))

/-- **C112** Decompose an IET with at most three intervals twice, by any steps in any order with any limits, such that `decompose()` returns true in the end.  The
cylinders are the same, with the same labels and lengths. -/
theorem C112_same [Archimedean P] (H : LawfulLengths O c ε) (hc : ∀ x, c x = 0 → x = 0) {L : PPL} (hL : L.Lawful) {E : IET T} {s : σ}
    (hE : H.Ok E s) (h3 : E.top.length ≤ 3) {D₁ D₂ D₁' D₂' : Decomp σ T} {steps₁ steps₂ : List DStep} (h₁ : DReach L O E s D₁ steps₁)
    (h₂ : DReach L O E s D₂ steps₂) {limit₁ limit₂ : ℤ} {fuel₁ fuel₂ : ℕ}
    (hr₁ : D₁.decompose L O Decomp.defaultTarget limit₁ fuel₁ = .ok (true, D₁')) (hr₂ : D₂.decompose L O Decomp.defaultTarget limit₂ fuel₂ = .ok (true, D₂'))
    {ι : T →+* P} (hι : StrictMono ι) : (D₁'.cylinders H).Perm (D₂'.cylinders H) := by
  obtain ⟨_, h₁', -, -⟩ := C38_target H hL hE h₁ hr₁
  obtain ⟨_, h₂', -, -⟩ := C38_target H hL hE h₂ hr₂
  exact C72_same H hL hE h₁' h₂' (settled_few H hc hL hE h3 h₁ hr₁ hι) (settled_few H hc hL hE h3 h₂ hr₂ hι)

/-- **C112** When the second one is a decomposition of the inverse transformation, there are the same number of cylinders of each length. -/
theorem C112_swap [Archimedean P] (H : LawfulLengths O c ε) (hc : ∀ x, c x = 0 → x = 0) {L : PPL} (hL : L.Lawful) {E : IET T} {s : σ}
    (hE : H.Ok E s) (h3 : E.top.length ≤ 3) {D₁ D₂ D₁' D₂' : Decomp σ T} {steps₁ steps₂ : List DStep} (h₁ : DReach L O E s D₁ steps₁)
    (h₂ : DReach L O E.swap s D₂ steps₂) {limit₁ limit₂ : ℤ} {fuel₁ fuel₂ : ℕ}
    (hr₁ : D₁.decompose L O Decomp.defaultTarget limit₁ fuel₁ = .ok (true, D₁')) (hr₂ : D₂.decompose L O Decomp.defaultTarget limit₂ fuel₂ = .ok (true, D₂'))
    {ι : T →+* P} (hι : StrictMono ι) : ((D₁'.cylinders H).map Prod.snd).Perm ((D₂'.cylinders H).map Prod.snd) := by
  have h3' : E.swap.top.length ≤ 3 := by
    have : E.bottom.length = E.top.length := hE.valid.perm.length_eq
    show E.bottom.length ≤ 3
    omega
  obtain ⟨_, h₁', -, -⟩ := C38_target H hL hE h₁ hr₁
  obtain ⟨_, h₂', -, -⟩ := C38_target H hL hE.swap h₂ hr₂
  exact C77_swap_same H hL hE h₁' h₂' (settled_few H hc hL hE h3 h₁ hr₁ hι) (settled_few H hc hL hE.swap h3' h₂ hr₂ hι)

/-- **C112** The periodic points are exactly the points whose orbits get to one of the cylinders. -/
theorem C112_periodic [Archimedean P] (H : LawfulLengths O c ε) (hc : ∀ x, c x = 0 → x = 0) {L : PPL} (hL : L.Lawful) {E : IET T} {s : σ}
    (hE : H.Ok E s) (h3 : E.top.length ≤ 3) {D D' : Decomp σ T} {steps : List DStep} (h : DReach L O E s D steps) {limit : ℤ} {fuel : ℕ}
    (hr : D.decompose L O Decomp.defaultTarget limit fuel = .ok (true, D')) {ι : T →+* P} (hι : StrictMono ι) :
    ∃ os : List T, os.length = D'.comps.length ∧ Covers (H.abs E s) (os.zip (D'.comps.map (fun x => H.abs x.iet D'.lengths.inner))) ∧
      ∀ x, Periodic (H.abs E s).Maps x ↔
        ∃ p ∈ os.zip (D'.comps.map (fun x => H.abs x.iet D'.lengths.inner)), p.2.top.length = 1 ∧ Meets (H.abs E s) p x := by
  obtain ⟨_, h', -, -⟩ := C38_target H hL hE h hr
  exact C77_periodic H hL hE h' (settled_few H hc hL hE h3 h hr hι)

/-- **C112** It makes no difference to call `induce()` before: when an IET with at most three intervals, in any reachable state, has been decomposed such that `decompose()`
returned true, then all the cylinders found in any decomposition of what `induce()` leaves behind are among its cylinders, with the same labels and lengths. -/
theorem C112_induce [Archimedean P] (H : LawfulLengths O c ε) (hc : ∀ x, c x = 0 → x = 0) {L : PPL} (hL : L.Lawful) {w : World σ T} (h : Reachable H L w)
    {E E' : IET T} {s' : σ} {step : InductionStep T} {n : ℕ} {m : ℤ} (hE : E ∈ w.pieces) (h3 : E.top.length ≤ 3)
    (hind : E.induce L O n m w.lengths = .ok (step, E', s')) {D₁ D₂ D₂' : Decomp σ T} {steps₁ steps₂ : List DStep} (h₁ : DReach L O E' s' D₁ steps₁)
    (h₂ : DReach L O E w.lengths D₂ steps₂) {limit : ℤ} {fuel : ℕ} (hr : D₂.decompose L O Decomp.defaultTarget limit fuel = .ok (true, D₂'))
    {ι : T →+* P} (hι : StrictMono ι) : (D₁.cylinders H).Subperm (D₂'.cylinders H) := by
  have hok := (h.good hL hE).ok
  obtain ⟨_, h₂', -, -⟩ := C38_target H hL hok h₂ hr
  exact C72_induce H hL h hE hind h₁ h₂' (settled_few H hc hL hok h3 h₂ hr hι)

open Examples in
/-- Lengths `5`, `2`, `7` in reversed order: both the IET and its inverse can be decomposed and have the same cylinders. -/
example : ∃ D₁ D₂ D₁' D₂', Decomp.make (SLengths.ops intArith) (IET.fresh [0, 1, 2] [2, 1, 0]) ⟨[], [5, 2, 7]⟩ = .ok D₁ ∧
    Decomp.make (SLengths.ops intArith) (IET.fresh [0, 1, 2] [2, 1, 0]).swap ⟨[], [5, 2, 7]⟩ = .ok D₂ ∧
    D₁.decompose PPL.ideal (SLengths.ops intArith) Decomp.defaultTarget (-1) 35 = .ok (true, D₁') ∧
    D₂.decompose PPL.ideal (SLengths.ops intArith) Decomp.defaultTarget (-1) 35 = .ok (true, D₂') ∧
    ((D₁'.cylinders hInt).map Prod.snd).Perm ((D₂'.cylinders hInt).map Prod.snd) := by
  obtain ⟨D₁, h1, -⟩ := Decomp.make_spec hInt (ι := AddMonoidHom.id ℤ) (fun _ _ h => h) intThree_ok
  obtain ⟨D₂, h2, -⟩ := Decomp.make_spec hInt (ι := AddMonoidHom.id ℤ) (fun _ _ h => h) intThree_ok.swap
  obtain ⟨D₁', g1, -⟩ := C39_decompose hInt PPL.ideal_lawful intThree_ok (u := 1) (by norm_num) (k := fun a => [5, 2, 7].getD a 0)
    (by decide) (by decide) (.init h1) (fuel := 35) (by decide)
  obtain ⟨D₂', g2, -⟩ := C39_decompose hInt PPL.ideal_lawful intThree_ok.swap (u := 1) (by norm_num) (k := fun a => [5, 2, 7].getD a 0)
    (by decide) (by decide) (.init h2) (fuel := 35) (by decide)
  exact ⟨D₁, D₂, D₁', D₂', h1, h2, g1, g2, C112_swap hInt (fun x hx => by simpa [intCoef] using congrFun hx 0) PPL.ideal_lawful intThree_ok (by decide)
    (.init h1) (.init h2) g1 g2 (ι := Int.castRingHom ℚ) (fun _ _ h => by simpa using h)⟩

open Examples in
/-- For the same IET, three rounds of `induce()` return something. -/
example : ((IET.fresh [0, 1, 2] [2, 1, 0] : IET ℤ).induce PPL.ideal (SLengths.ops intArith) 10 3 ⟨[], [5, 2, 7]⟩).toOption.isSome = true := by decide +kernel

open Examples in
/-- So the cylinders that are found afterwards have been there before. -/
example {n : ℕ} {m : ℤ} {step : InductionStep ℤ} {E' : IET ℤ} {s' : SLengths ℤ}
    (hind : (IET.fresh [0, 1, 2] [2, 1, 0] : IET ℤ).induce PPL.ideal (SLengths.ops intArith) n m ⟨[], [5, 2, 7]⟩ = .ok (step, E', s')) {D₁ : Decomp (SLengths ℤ) ℤ}
    {steps₁ : List DStep} (h₁ : DReach PPL.ideal (SLengths.ops intArith) E' s' D₁ steps₁) :
    ∃ D₂ D₂', Decomp.make (SLengths.ops intArith) (IET.fresh [0, 1, 2] [2, 1, 0]) ⟨[], [5, 2, 7]⟩ = .ok D₂ ∧
      D₂.decompose PPL.ideal (SLengths.ops intArith) Decomp.defaultTarget (-1) 35 = .ok (true, D₂') ∧ (D₁.cylinders hInt).Subperm (D₂'.cylinders hInt) := by
  obtain ⟨D₂, h2, -⟩ := Decomp.make_spec hInt (ι := AddMonoidHom.id ℤ) (fun _ _ h => h) intThree_ok
  obtain ⟨D₂', g2, -⟩ := C39_decompose hInt PPL.ideal_lawful intThree_ok (u := 1) (by norm_num) (k := fun a => [5, 2, 7].getD a 0)
    (by decide) (by decide) (.init h2) (fuel := 35) (by decide)
  exact ⟨D₂, D₂', h2, g2, C112_induce hInt (fun x hx => by simpa [intCoef] using congrFun hx 0) PPL.ideal_lawful
    (sample_reachable hInt PPL.ideal intThree_ok) (E := IET.fresh [0, 1, 2] [2, 1, 0]) (by simp) (by decide) hind h₁ (.init h2) g2
    (ι := Int.castRingHom ℚ) (fun _ _ h => by simpa using h)⟩

end Verif
