import Verif.SpecBasis
import Verif.Reach
import Verif.ReachDecomp
import Verif.Proofs.RebaseDecomp
import Verif.Examples

/-!
# C63: results do not depend on the bases that coefficients refer to

`coefficients()` returns the coordinates of lengths over a basis that depends on the lengths it is called with.  The same program is run twice,
once with such a function `f` and once with coordinates `c` over a fixed basis.
-/

namespace Verif

set_option linter.unusedSectionVars false

variable {σ T ε : Type} [CommRing T] [LinearOrder T] [IsStrictOrderedRing T] {O : LengthsOps σ T} {d : ℕ} {c : T →+ (Fin d → ℚ)}

/-- The same user program runs with the coordinates that `f` returns and with the coordinates `O` returns. -/
inductive BothBases (H : LawfulLengths O c ε) (f : List Label → σ → M (List (List ℚ))) (L : PPL) : World σ T → World σ T → Prop
  | init {pieces : List (IET T)} {s : σ} : (∀ E ∈ pieces, E = IET.fresh E.top E.bottom ∧ H.Ok E s) →
      pieces.Pairwise (fun E F => ∀ a ∈ E.top, a ∉ F.top) → BothBases H f L ⟨pieces, s⟩ ⟨pieces, s⟩
  | step {w w₁ w' w₁' : World σ T} (fuel : ℕ) (op : Op) : BothBases H f L w w' → op.exec L (O.rebase f) fuel w = .ok w₁ →
      op.exec L O fuel w' = .ok w₁' → BothBases H f L w₁ w₁'

theorem BothBases.alike {H : LawfulLengths O c ε} {f : List Label → σ → M (List (List ℚ))} (hf : H.Coordinates f) (hc : ∀ x, c x = 0 → x = 0)
    {L : PPL} (hL : L.Lawful) {w w' : World σ T} (h : BothBases H f L w w') : AlikeWorld H w w' := by
  induction h with
  | @init pieces s h1 h2 =>
    refine ⟨(Reachable.init h1 h2).ok hL, rfl, ?_⟩
    simp only
    rw [List.forall₂_same]
    intro E hE
    rw [(h1 E hE).1]
    exact Alike.fresh ((h1 E hE).1 ▸ (h1 E hE).2)
  | @step w w₁ w' w₁' fuel op _ e1 e2 ih => exact (ih.exec hf hc hL fuel op).of_ok e1 e2

/-- **C63.** With either kind of coordinates the same calls return, otherwise both fail in the same way. -/
theorem C63_progress (H : LawfulLengths O c ε) {f : List Label → σ → M (List (List ℚ))} (hf : H.Coordinates f) (hc : ∀ x, c x = 0 → x = 0)
    {L : PPL} (hL : L.Lawful) {w w' : World σ T} (h : BothBases H f L w w') (fuel : ℕ) (op : Op) :
    (∃ e, op.exec L (O.rebase f) fuel w = .error e ∧ op.exec L O fuel w' = .error e) ∨
      ∃ w₁ w₁', op.exec L (O.rebase f) fuel w = .ok w₁ ∧ op.exec L O fuel w' = .ok w₁' ∧ BothBases H f L w₁ w₁' := by
  have := (h.alike hf hc hL).exec hf hc hL fuel op
  cases h1 : op.exec L (O.rebase f) fuel w with
  | error e =>
    rw [h1] at this
    cases h2 : op.exec L O fuel w' with
    | error e' => rw [h2] at this; cases (show e = e' from this); exact .inl ⟨e, rfl, rfl⟩
    | ok b => rw [h2] at this; exact this.elim
  | ok w₁ =>
    obtain ⟨w₁', h2, _⟩ := this.ok_left h1
    exact .inr ⟨w₁, w₁', rfl, h2, .step fuel op h h1 h2⟩

/-- **C63.** After the same calls there are the same IETs with the same lengths. -/
theorem C63_state (H : LawfulLengths O c ε) {f : List Label → σ → M (List (List ℚ))} (hf : H.Coordinates f) (hc : ∀ x, c x = 0 → x = 0)
    {L : PPL} (hL : L.Lawful) {w w' : World σ T} (h : BothBases H f L w w') :
    w.lengths = w'.lengths ∧ List.Forall₂ (fun E F => E.top = F.top ∧ E.bottom = F.bottom ∧ E.swapped = F.swapped) w.pieces w'.pieces :=
  ⟨(h.alike hf hc hL).lengths, (h.alike hf hc hL).alike.imp (fun _ _ hs => ⟨hs.top, hs.bottom, hs.swapped⟩)⟩

/-- Results related by a relation that implies that the first components are the same. -/
theorem RelM.map_fst {α β γ : Type} {R : α × β → α × γ → Prop} {x : M (α × β)} {y : M (α × γ)} (hR : ∀ a b, R a b → a.1 = b.1)
    (hxy : RelM R x y) : x.map Prod.fst = y.map Prod.fst := by
  cases x with
  | error e => cases y with
    | error e' => cases (show e = e' from hxy); rfl
    | ok b => exact hxy.elim
  | ok a => cases y with
    | error e' => exact hxy.elim
    | ok b => simp only [Except.map]; rw [hR a b hxy]

/-- **C63.** After the same calls all functions return the same values.  What differs are the entries of the SAF invariant, but it is zero for one
choice of coordinates if and only if it is for the other. -/
theorem C63_results (H : LawfulLengths O c ε) {f : List Label → σ → M (List (List ℚ))} (hf : H.Coordinates f) (hc : ∀ x, c x = 0 → x = 0)
    {L : PPL} (hL : L.Lawful) {w w' : World σ T} (h : BothBases H f L w w') {i : ℕ} {E F : IET T} (hE : w.pieces[i]? = some E)
    (hF : w'.pieces[i]? = some F) :
    (∀ fuel limit, (E.induce L (O.rebase f) fuel limit w.lengths).map Prod.fst = (F.induce L O fuel limit w'.lengths).map Prod.fst) ∧
    (E.zorichInduction (O.rebase f) w.lengths).map Prod.fst = (F.zorichInduction O w'.lengths).map Prod.fst ∧
    (E.reduce (O.rebase f) w.lengths).map Prod.fst = (F.reduce O w'.lengths).map Prod.fst ∧
    (E.boshernitzanNoPeriodicTrajectory L (O.rebase f) w.lengths).map Prod.fst =
      (F.boshernitzanNoPeriodicTrajectory L O w'.lengths).map Prod.fst ∧
    E.boshernitzanNoSaddleConnection L (O.rebase f) w.lengths = F.boshernitzanNoSaddleConnection L O w'.lengths ∧
    (∀ t b, E.boshernitzanNoSaddleConnection₂ L (O.rebase f) t b w.lengths = F.boshernitzanNoSaddleConnection₂ L O t b w'.lengths) ∧
    ∃ v v' E' F', E.safInvariant (O.rebase f) w.lengths = .ok (v, E') ∧ F.safInvariant O w'.lengths = .ok (v', F') ∧
      ((∀ a ∈ v, a = 0) ↔ ∀ a ∈ v', a = 0) := by
  have hs := h.alike hf hc hL
  obtain ⟨F', hF', ha⟩ := hs.get hE
  rw [hF] at hF'
  cases hF'
  rw [hs.lengths]
  refine ⟨fun fuel limit => RelM.map_fst (fun _ _ h => h.1) (ha.induce hf hc hL fuel limit), ?_, ?_, RelM.map_fst (fun _ _ h => h.1) (ha.bosh hf hc hL),
    ha.noSaddle hf hc hL, ha.noSaddle₂ hf hc hL, ?_⟩
  · obtain ⟨r, E', F', s', e1, e2, -⟩ := ha.zorich' (f := f)
    rw [e1, e2]
    rfl
  · rcases ha.weaken.reduce (f := f) with ⟨e1, e2⟩ | ⟨R, E', F', e1, e2, -⟩
    · rw [e1, e2]; rfl
    · rw [e1, e2]; rfl
  · have e2 := safInvariant_spec H ha.ok ha.cache
    obtain ⟨⟨v, E'⟩, e1, e3, -⟩ := (ha.safInvariant hf hc).symm.ok_left e2
    exact ⟨v, _, E', _, e1, e2, e3⟩

/-! ## Decompositions -/

/-- The same decomposition is made with the coordinates that `f` returns and with the ones that `O` returns: the same calls to
`decompositionStep` of the components; `steps` and `steps'` are what they return. -/
inductive BothDecompositions (O : LengthsOps σ T) (f : List Label → σ → M (List (List ℚ))) (L : PPL) (E : IET T) (s : σ) :
    Decomp σ T → List DStep → Decomp σ T → List DStep → Prop
  | init {D D' : Decomp σ T} : Decomp.make (O.rebase f) E s = .ok D → Decomp.make O E s = .ok D' → BothDecompositions O f L E s D [] D' []
  | step {D D₁ D' D₁' : Decomp σ T} {steps steps' : List DStep} {step step' : DStep} (fuel : ℕ) (limit : ℤ) (i : ℕ) :
      BothDecompositions O f L E s D steps D' steps' → D.decompositionStep L (O.rebase f) fuel limit i = .ok (step, D₁) →
      D'.decompositionStep L O fuel limit i = .ok (step', D₁') → BothDecompositions O f L E s D₁ (steps ++ [step]) D₁' (steps' ++ [step'])

theorem BothDecompositions.pair {H : LawfulLengths O c ε} {f : List Label → σ → M (List (List ℚ))} (hf : H.Coordinates f)
    (hc : ∀ x, c x = 0 → x = 0) {L : PPL} (hL : L.Lawful) {E : IET T} {s : σ} (hE : H.Ok E s) {D D' : Decomp σ T} {steps steps' : List DStep}
    (h : BothDecompositions O f L E s D steps D' steps') : steps = steps' ∧ Decomp.Pair H D D' := by
  induction h with
  | init e1 e2 =>
    obtain ⟨D, g1, g2, g3⟩ := Decomp.Pair.make (f := f) hE
    rw [g1] at e1
    rw [g2] at e2
    cases e1
    cases e2
    exact ⟨rfl, g3⟩
  | step fuel limit i _ e1 e2 ih =>
    obtain ⟨h1, h2⟩ := (ih.2.step hf hc hL fuel limit i).of_ok e1 e2
    simp only at h1 h2
    rw [h1, ih.1]
    exact ⟨rfl, h2⟩

/-- **C63.** A step of a decomposition returns the same with either kind of coordinates or fails in the same way. -/
theorem C63_step (H : LawfulLengths O c ε) {f : List Label → σ → M (List (List ℚ))} (hf : H.Coordinates f) (hc : ∀ x, c x = 0 → x = 0)
    {L : PPL} (hL : L.Lawful) {E : IET T} {s : σ} (hE : H.Ok E s) {D D' : Decomp σ T} {steps steps' : List DStep}
    (h : BothDecompositions O f L E s D steps D' steps') (fuel : ℕ) (limit : ℤ) (i : ℕ) :
    (D.decompositionStep L (O.rebase f) fuel limit i).map Prod.fst = (D'.decompositionStep L O fuel limit i).map Prod.fst :=
  ((h.pair hf hc hL hE).2.step hf hc hL fuel limit i).map_fst (fun _ _ h => h.1)

/-- What can be seen of a component. -/
structure Comp.SameVisible (x y : Comp T) : Prop where
  top : x.iet.top = y.iet.top
  bottom : x.iet.bottom = y.iet.bottom
  swapped : x.iet.swapped = y.iet.swapped
  cylinder : x.cylinder = y.cylinder
  withoutPeriodicTrajectory : x.withoutPeriodicTrajectory = y.withoutPeriodicTrajectory
  keane : x.keane = y.keane

/-- **C63.** After the same calls the same steps have been reported and there are the same components, with the same lengths and the same
connections recorded between their half edges, and both decompositions know the same about the dynamics. -/
theorem C63_decomposition (H : LawfulLengths O c ε) {f : List Label → σ → M (List (List ℚ))} (hf : H.Coordinates f) (hc : ∀ x, c x = 0 → x = 0)
    {L : PPL} (hL : L.Lawful) {E : IET T} {s : σ} (hE : H.Ok E s) {D D' : Decomp σ T} {steps steps' : List DStep}
    (h : BothDecompositions O f L E s D steps D' steps') :
    steps = steps' ∧ D.lengths = D'.lengths ∧ List.Forall₂ Comp.SameVisible D.comps D'.comps := by
  obtain ⟨h1, h2⟩ := h.pair hf hc hL hE
  exact ⟨h1, h2.1.lengths, h2.1.comps.imp (fun _ _ hx => ⟨hx.top, hx.bottom, hx.swapped, hx.cylinder, hx.withoutPeriodicTrajectory, hx.keane⟩)⟩

/-- **C63.** `decompose` returns the same value and decomposes into the same components, for any target that depends on what can be seen. -/
theorem C63_decompose (H : LawfulLengths O c ε) {f : List Label → σ → M (List (List ℚ))} (hf : H.Coordinates f) (hc : ∀ x, c x = 0 → x = 0)
    {L : PPL} (hL : L.Lawful) {E : IET T} {s : σ} (hE : H.Ok E s) {D D' : Decomp σ T} {steps steps' : List DStep}
    (h : BothDecompositions O f L E s D steps D' steps') {target : Comp T → Bool} (ht : ∀ x y, Comp.SameVisible x y → target x = target y)
    (limit : ℤ) (fuel : ℕ) :
    (∃ e, D.decompose L (O.rebase f) target limit fuel = .error e ∧ D'.decompose L O target limit fuel = .error e) ∨
      ∃ r D₁ D₁', D.decompose L (O.rebase f) target limit fuel = .ok (r, D₁) ∧ D'.decompose L O target limit fuel = .ok (r, D₁') ∧
        D₁.lengths = D₁'.lengths ∧ List.Forall₂ Comp.SameVisible D₁.comps D₁'.comps := by
  have key := (h.pair hf hc hL hE).2.decompose hf hc hL (target := target)
    (fun _ _ _ hx => ht _ _ ⟨hx.top, hx.bottom, hx.swapped, hx.cylinder, hx.withoutPeriodicTrajectory, hx.keane⟩) limit fuel
  cases h1 : D.decompose L (O.rebase f) target limit fuel with
  | error e =>
    rw [h1] at key
    cases h2 : D'.decompose L O target limit fuel with
    | error e' => rw [h2] at key; cases (show e = e' from key); exact .inl ⟨e, rfl, rfl⟩
    | ok b => rw [h2] at key; exact key.elim
  | ok x =>
    obtain ⟨y, h2, h3, h4⟩ := key.ok_left h1
    obtain ⟨r, D₁⟩ := x
    obtain ⟨r', D₁'⟩ := y
    cases h3
    exact .inr ⟨r, D₁, D₁', rfl, h2, h4.1.lengths,
      h4.1.comps.imp (fun _ _ hx => ⟨hx.top, hx.bottom, hx.swapped, hx.cylinder, hx.withoutPeriodicTrajectory, hx.keane⟩)⟩

/-! ## Example: rational numbers have a single coefficient, other elements of `ℤ[√2]` have two -/

namespace Examples

/-- Coefficients as in renf_elem_coefficients.hpp:40-70: if all numbers are rational there is a single coefficient each; otherwise there is one
coefficient for `1` and one for `√2`. -/
def q2Coeffs (l : List Q2) : M (List (List ℚ)) :=
  if l.all (fun x => x.im = 0) then .ok (l.map (fun x => [(x.re : ℚ)])) else .ok (l.map (fun x => [(x.re : ℚ), (x.im : ℚ)]))

/-- `coefficients()` for `q2Coeffs`. -/
def q2Adaptive : List Label → SLengths Q2 → M (List (List ℚ)) := SLengths.coefficients ⟨q2FloorDivision, q2Coeffs⟩

theorem mapM_at (s : SLengths Q2) : ∀ l : List Label, (∀ x ∈ l, x < s.lengths.length) → l.mapM s.at' = .ok (l.map (fun x => s.lengths.getD x 0))
  | [], _ => rfl
  | x :: l, h => by
    rw [List.mapM_cons, mapM_at s l (fun y hy => h y (List.mem_cons_of_mem _ hy))]
    have hx := h x List.mem_cons_self
    simp only [SLengths.at', List.getElem?_eq_getElem hx, bind, Except.bind, pure, Except.pure, List.map_cons, List.getD_eq_getElem _ _ hx]

theorem sum_re (g : Label → ℤ) (x : Label → Q2) (l : List Label) : ((l.map (fun a => g a • x a)).sum).re = (l.map (fun a => g a * (x a).re)).sum := by
  induction l with
  | nil => rfl
  | cons a l ih => rw [List.map_cons, List.sum_cons, Zsqrtd.re_add, ih]; simp

theorem sum_im (g : Label → ℤ) (x : Label → Q2) (l : List Label) : ((l.map (fun a => g a • x a)).sum).im = (l.map (fun a => g a * (x a).im)).sum := by
  induction l with
  | nil => rfl
  | cons a l ih => rw [List.map_cons, List.sum_cons, Zsqrtd.im_add, ih]; simp

theorem sum_apply {n : ℕ} (g : Label → ℤ) (w : Label → Fin n → ℚ) (l : List Label) (i : Fin n) :
    (l.map (fun a => g a • w a)).sum i = (l.map (fun a => (g a : ℚ) * w a i)).sum := by
  induction l with
  | nil => rfl
  | cons a l ih => rw [List.map_cons, List.sum_cons, Pi.add_apply, ih]; simp

theorem sum_cast (g : Label → ℤ) (x : Label → ℤ) (l : List Label) : (l.map (fun a => (g a : ℚ) * (x a : ℚ))).sum = ((l.map (fun a => g a * x a)).sum : ℤ) := by
  induction l with
  | nil => rfl
  | cons a l ih => simp [ih]

theorem q2Adaptive_coordinates : hQ2.Coordinates q2Adaptive := by
  intro s l _ hd _
  have hlen : ∀ x, hQ2.len s x = s.lengths.getD x 0 := fun _ => rfl
  have e := mapM_at s l hd
  simp only [q2Adaptive, SLengths.coefficients, e, bind, Except.bind, q2Coeffs]
  by_cases h : (l.map (fun x => s.lengths.getD x 0)).all (fun x => x.im = 0) = true
  · refine ⟨1, fun x _ => (s.lengths.getD x 0).re, ?_, fun n => ?_⟩
    · rw [if_pos h]; simp
    · simp only [hlen]
      have h0 : (l.map (fun a => n a * (s.lengths.getD a 0).im)).sum = 0 := by
        refine List.sum_eq_zero ?_
        simp only [List.all_map, List.all_eq_true, Function.comp, decide_eq_true_eq] at h
        simp only [List.mem_map]
        rintro _ ⟨a, ha, rfl⟩
        rw [h a ha, mul_zero]
      rw [Zsqrtd.ext_iff, sum_re, sum_im, h0]
      constructor
      · intro g
        have := congrFun g 0
        rw [sum_apply, sum_cast] at this
        exact ⟨Int.cast_eq_zero.1 this, rfl⟩
      · rintro ⟨g, -⟩
        funext i
        rw [sum_apply, sum_cast, g]
        rfl
  · refine ⟨2, fun x i => if i = 0 then (s.lengths.getD x 0).re else (s.lengths.getD x 0).im, ?_, fun n => ?_⟩
    · rw [if_neg h]; simp [List.ofFn_succ]
    · simp only [hlen]
      rw [Zsqrtd.ext_iff, sum_re, sum_im]
      constructor
      · intro g
        have g0 := congrFun g 0
        have g1 := congrFun g 1
        rw [sum_apply] at g0 g1
        simp only [if_true, if_neg (by decide : ¬ (1 : Fin 2) = 0), sum_cast] at g0 g1
        exact ⟨Int.cast_eq_zero.1 g0, Int.cast_eq_zero.1 g1⟩
      · rintro ⟨g0, g1⟩
        funext i
        rw [sum_apply]
        fin_cases i
        · simp only [Fin.zero_eta, if_true, sum_cast, g0]; rfl
        · simp only [Fin.mk_one, if_neg (by decide : ¬ (1 : Fin 2) = 0), sum_cast, g1]; rfl

theorem q2Coef_injective (x : Q2) (h : q2Coef x = 0) : x = 0 := by
  have h0 := congrFun h 0
  have h1 := congrFun h 1
  simp [q2Coef] at h0 h1
  exact Zsqrtd.ext h0 h1

/-- The bases do depend on the lengths: there is one coefficient for the lengths 1, 2 and two for 1, √2. -/
example : q2Adaptive [0, 1] ⟨[], [1, 2]⟩ = .ok [[1], [2]] ∧ q2Adaptive [0, 1] ⟨[], [1, ⟨0, 1⟩]⟩ = .ok [[1, 0], [0, 1]] := by decide +kernel

/-- A reducible IET with lengths in `ℤ[√2]` that is reduced; its first piece is then decided by the same calls with either kind of coordinates. -/
example (fuel : ℕ) : ∃ w w', BothBases hQ2 q2Adaptive PPL.ideal w w' ∧ w.pieces.length = 2 ∧
    ((∃ e, (Op.induce 0 10).exec PPL.ideal ((SLengths.ops q2Arith).rebase q2Adaptive) fuel w = .error e ∧
        (Op.induce 0 10).exec PPL.ideal (SLengths.ops q2Arith) fuel w' = .error e) ∨
      ∃ w₁ w₁', (Op.induce 0 10).exec PPL.ideal ((SLengths.ops q2Arith).rebase q2Adaptive) fuel w = .ok w₁ ∧
        (Op.induce 0 10).exec PPL.ideal (SLengths.ops q2Arith) fuel w' = .ok w₁' ∧ BothBases hQ2 q2Adaptive PPL.ideal w₁ w₁') := by
  have h : BothBases hQ2 q2Adaptive PPL.ideal ⟨[redIET], redState⟩ ⟨[redIET], redState⟩ :=
    .init (by simp; exact ⟨rfl, red_ok⟩) (by simp)
  obtain ⟨e, h1, -⟩ | ⟨w₁, w₁', h1, h2, h3⟩ := C63_progress hQ2 q2Adaptive_coordinates q2Coef_injective PPL.ideal_lawful h 0 (.reduce 0)
  · cases h1
  · exact ⟨w₁, w₁', h3, by cases h1; rfl, C63_progress hQ2 q2Adaptive_coordinates q2Coef_injective PPL.ideal_lawful h3 fuel (.induce 0 10)⟩

/-- Two intervals of lengths 1, 2, seen as elements of `ℤ[√2]`. -/
def commIET : IET Q2 := .fresh [0, 1] [1, 0]
/-- Its lengths. -/
def commState : SLengths Q2 := ⟨[], [1, 2]⟩

theorem comm_ok : hQ2.Ok commIET commState := sample_ok _ _ _ _ (by decide)

/-- A step in the decomposition of an IET with rational lengths, with one coefficient per length on one side and with two coefficients on the
other: the step is the same. -/
example : ∃ step D D', BothDecompositions (SLengths.ops q2Arith) q2Adaptive PPL.ideal commIET commState D [step] D' [step] ∧
    D.lengths = D'.lengths ∧ List.Forall₂ Comp.SameVisible D.comps D'.comps := by
  obtain ⟨D, h1, h2, h3⟩ := Decomp.Pair.make (f := q2Adaptive) comm_ok
  have hb := BothDecompositions.init (L := PPL.ideal) h1 h2
  obtain ⟨D₀, g1, g2, -, g3⟩ := Decomp.make_spec hQ2 (ι := AddMonoidHom.id Q2) (fun _ _ h => h) comm_ok
  rw [h2] at g1
  cases g1
  obtain ⟨step, D', g4, -⟩ := decompositionStepBounded_spec (fun _ _ h => h) PPL.ideal_lawful g3 (i := 0) (by rw [g2]; rfl) (limit := 5) (by decide)
  have e2 : D.decompositionStep PPL.ideal (SLengths.ops q2Arith) 0 5 0 = .ok (step, D') := g4
  have e := C63_step hQ2 q2Adaptive_coordinates q2Coef_injective PPL.ideal_lawful comm_ok hb 0 5 0
  rw [e2] at e
  cases e1 : D.decompositionStep PPL.ideal ((SLengths.ops q2Arith).rebase q2Adaptive) 0 5 0 with
  | error x => rw [e1] at e; cases e
  | ok x =>
    obtain ⟨step', D₁⟩ := x
    rw [e1] at e
    cases e
    have hb' := hb.step 0 5 0 e1 e2
    exact ⟨step, D₁, D', hb', (C63_decomposition hQ2 q2Adaptive_coordinates q2Coef_injective PPL.ideal_lawful comm_ok hb').2⟩

end Examples

end Verif
