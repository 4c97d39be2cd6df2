import Verif.Model.Checks

/-!
# Disabling checks

`Ref K x y`: the outcome is the same unless a check failed that is disabled in `K`.  We show that for all functions of the model, `x` the
function with all checks, `y` the function with the checks in `K`.
-/

namespace Verif

set_option linter.unusedSectionVars false

/-! ### All checks enabled -/

@[simp] theorem assertK_true (c : M Bool) : assertK true c = (c >>= fun b => assertM b) := rfl

@[simp] theorem assertK_false (c : M Bool) : assertK false c = .ok () := rfl

@[simp] theorem Checks.all_asserts : Checks.all.asserts = true := rfl
@[simp] theorem Checks.all_arguments : Checks.all.arguments = true := rfl
@[simp] theorem Checks.all_std : Checks.all.std = true := rfl

@[simp] theorem ok_bind {α β : Type} (a : α) (f : α → M β) : ((Except.ok a : M α) >>= f) = f a := rfl

@[simp] theorem error_bind {α β : Type} (e : Err) (f : α → M β) : ((Except.error e : M α) >>= f) = .error e := rfl

theorem bind_bind {α β γ : Type} (x : M α) (f : α → M β) (g : β → M γ) : (x >>= f) >>= g = x >>= fun a => f a >>= g := by
  cases x <;> rfl

namespace SLengths

variable {T : Type} [CommRing T] [LinearOrder T]

theorem subtractK_all (a : Label) (s : SLengths T) : subtractK .all a s = subtract a s := by
  simp [subtractK, subtract, bind_assoc]

theorem subtractRepeatedLoopK_all (a : Label) (ls : List Label) :
    ∀ (stop : Label) (s : SLengths T), subtractRepeatedLoopK .all a ls stop s = subtractRepeatedLoop a ls stop s := by
  induction ls with
  | nil => intro stop s; rfl
  | cons l ls ih => intro stop s; simp [subtractRepeatedLoopK, subtractRepeatedLoop, bind_assoc, ih]

theorem subtractRepeatedK_all (A : Arith T) (a : Label) (s : SLengths T) :
    subtractRepeatedK .all A a s = subtractRepeated A a s := by
  unfold subtractRepeatedK subtractRepeated
  cases s.stack.getLast? with
  | none => rfl
  | some last => simp [bind_assoc, subtractRepeatedLoopK_all]

theorem opsK_all (A : Arith T) : opsK .all A = ops A := by
  have h1 : (subtractK (T := T) .all) = subtract := by funext a s; exact subtractK_all a s
  have h2 : (subtractRepeatedK (T := T) .all A) = subtractRepeated A := by funext a s; exact subtractRepeatedK_all A a s
  simp [opsK, ops, h1, h2]

end SLengths

namespace LWC

variable {σ T : Type}

theorem pushK_all (O : LengthsOps σ T) (l : Label) (s : LWC σ) : pushK .all O l s = push O l s := by
  simp [pushK, push]

theorem popK_all (O : LengthsOps σ T) (s : LWC σ) : popK .all O s = pop O s := by
  by_cases h : s.stack = [] <;> simp [popK, pop, h, assertM]

theorem subtractRepeatedK_all (O : LengthsOps σ T) (ctx : Ctx) (m : Label) (s : LWC σ) :
    subtractRepeatedK .all O ctx m s = subtractRepeated O ctx m s := by
  unfold subtractRepeatedK subtractRepeated
  cases h : s.stack with
  | nil => simp [assertM]
  | cons b rest => simp [assertM]

theorem opsK_all (O : LengthsOps σ T) : opsK .all O = ops O := by
  have h1 : (pushK .all O) = push O := by funext l s; exact pushK_all O l s
  have h2 : (popK .all O) = pop O := by funext s; exact popK_all O s
  have h3 : (subtractRepeatedK .all O) = subtractRepeated O := by funext ctx m s; exact subtractRepeatedK_all O ctx m s
  simp [opsK, ops, h1, h2, h3]

end LWC

theorem linearExpressionFromVectorK_all (vec : List ℚ) (rhs : ℚ) :
    linearExpressionFromVectorK .all vec rhs = linearExpressionFromVector vec rhs := by
  simp [linearExpressionFromVectorK, linearExpressionFromVector]

theorem Subspace.ofEquationsK_all (equations : List (List ℚ)) (y : List ℚ) :
    ofEquationsK .all equations y = ofEquations equations y := by
  unfold ofEquationsK ofEquations
  by_cases h : equations.length = y.length
  · simp [h, linearExpressionFromVectorK_all]
  · simp [h]

namespace IET

variable {σ T : Type}

theorem mkK_all [Zero T] [DecidableEq T] (O : LengthsOps σ T) (top bottom : List Label) (s : σ) :
    mkK .all O top bottom s = mk? O top bottom s := by
  simp [mkK, mk?, bind_assoc]

theorem wedgeK_all (v w : List ℚ) : wedgeK .all v w = wedge v w := by
  unfold wedgeK wedge
  by_cases h : v.length = w.length <;> simp [h]

theorem addVecK_all (v w : List ℚ) : addVecK .all v w = addVec v w := by
  unfold addVecK addVec
  by_cases h : v.length = w.length <;> simp [h, assertM] <;> rfl

theorem subVecK_all (v w : List ℚ) : subVecK .all v w = subVec v w := by
  unfold subVecK subVec
  by_cases h : v.length = w.length <;> simp [h, assertM] <;> rfl

theorem translationK_all (E : IET T) (top bottom : Label) (m : CoeffMap) :
    E.translationK .all top bottom m = E.translation top bottom m := by
  have h1 : addVecK .all = addVec := by funext v w; exact addVecK_all v w
  have h2 : subVecK .all = subVec := by funext v w; exact subVecK_all v w
  simp only [translationK, translation, h1, h2]
  rfl

theorem translationsK_all (O : LengthsOps σ T) (E : IET T) (s : σ) : E.translationsK .all O s = E.translations O s := by
  simp [translationsK, translations, translationK_all]

theorem rawSafK_all (O : LengthsOps σ T) (E : IET T) (s : σ) : E.rawSafK .all O s = E.rawSaf O s := by
  simp [rawSafK, rawSaf, translationsK_all, addVecK_all, wedgeK_all]
  rfl

theorem safK_all (O : LengthsOps σ T) (E : IET T) (s : σ) : E.safK .all O s = E.saf O s := by
  simp only [safK, saf, rawSafK_all]
  rfl

theorem saf0K_all (O : LengthsOps σ T) (E : IET T) (s : σ) : E.saf0K .all O s = E.saf0 O s := by
  simp [saf0K, saf0, safK_all]

theorem safInvariantK_all (O : LengthsOps σ T) (E : IET T) (s : σ) : E.safInvariantK .all O s = E.safInvariant O s := by
  simp [safInvariantK, safInvariant, safK_all]

theorem boshernitzanEquationsK_all (O : LengthsOps σ T) (E : IET T) (s : σ) :
    E.boshernitzanEquationsK .all O s = E.boshernitzanEquations O s := by
  simp only [boshernitzanEquationsK, boshernitzanEquations, translationsK_all]
  rfl

theorem boshernitzanNoPeriodicTrajectoryK_all (L : PPL) (O : LengthsOps σ T) (E : IET T) (s : σ) :
    E.boshernitzanNoPeriodicTrajectoryK .all L O s = E.boshernitzanNoPeriodicTrajectory L O s := by
  simp only [boshernitzanNoPeriodicTrajectoryK, boshernitzanNoPeriodicTrajectory, saf0K_all, boshernitzanEquationsK_all,
    Subspace.ofEquationsK_all]

theorem boshernitzanSaddleConnectionValuesK_arguments (K : Checks) (hK : K.arguments = true) (O : LengthsOps σ T) (E : IET T)
    (top bottom : Label) (s : σ) :
    E.boshernitzanSaddleConnectionValuesK K O top bottom s = (do
      match ← nextLabel top E.top with
      | none => .error .invalidArgument
      | some t =>
        match ← nextLabel bottom E.bottom with
        | none => .error .invalidArgument
        | some b =>
          let v ← E.translationK K t b (← E.labelToCoefficients O s)
          return v.map (fun c => -c)) := by
  simp only [boshernitzanSaddleConnectionValuesK, endPointK, hK, if_true, bind_assoc]
  cases nextLabel top E.top with
  | error e => rfl
  | ok t =>
    cases t with
    | none => rfl
    | some t =>
      cases nextLabel bottom E.bottom with
      | error e => rfl
      | ok b => cases b <;> rfl

theorem boshernitzanSaddleConnectionValuesK_all (O : LengthsOps σ T) (E : IET T) (top bottom : Label) (s : σ) :
    E.boshernitzanSaddleConnectionValuesK .all O top bottom s = E.boshernitzanSaddleConnectionValues O top bottom s := by
  rw [boshernitzanSaddleConnectionValuesK_arguments _ rfl]
  simp only [boshernitzanSaddleConnectionValues, translationK_all]
  rfl

theorem boshernitzanNoSaddleConnection₂K_all (L : PPL) (O : LengthsOps σ T) (E : IET T) (top bottom : Label) (s : σ) :
    E.boshernitzanNoSaddleConnection₂K .all L O top bottom s = E.boshernitzanNoSaddleConnection₂ L O top bottom s := by
  simp only [boshernitzanNoSaddleConnection₂K, boshernitzanNoSaddleConnection₂, boshernitzanSaddleConnectionValuesK_all,
    boshernitzanEquationsK_all, Subspace.ofEquationsK_all]

theorem boshernitzanNoSaddleConnectionK_all (L : PPL) (O : LengthsOps σ T) (E : IET T) (s : σ) :
    E.boshernitzanNoSaddleConnectionK .all L O s = E.boshernitzanNoSaddleConnection L O s := by
  simp only [boshernitzanNoSaddleConnectionK, boshernitzanNoSaddleConnection, boshernitzanNoSaddleConnection₂K_all]

theorem reduceLoopK_all (ts : List Label) : ∀ (bs marked : List Label) (x y : Int) (n : ℕ),
    reduceLoopK .all ts bs marked x y n = reduceLoop ts bs marked x y n := by
  induction ts with
  | nil => intro bs marked x y n; rfl
  | cons t ts ih =>
    intro bs marked x y n
    cases bs with
    | nil => rfl
    | cons b bs => simp only [reduceLoopK, reduceLoop, ih]

theorem reduceK_all [Zero T] [DecidableEq T] (O : LengthsOps σ T) (E : IET T) (s : σ) : E.reduceK .all O s = E.reduce O s := by
  simp [reduceK, reduce, reduceLoopK_all, mkK_all]

variable [CommRing T] [LinearOrder T]

theorem trackStepK_all (O : LengthsOps σ T) (z : Bool) (E : IET T) (s : σ) : E.trackStepK .all O z s = E.trackStep O z s := by
  simp only [trackStepK, trackStep, safK_all]

theorem induceLoopK_all (O : LengthsOps σ T) (z : Bool) (n : ℕ) :
    ∀ (E : IET T) (s : σ), induceLoopK .all O z n E s = induceLoop O z n E s := by
  induction n with
  | zero => intro E s; rfl
  | succ n ih => intro E s; simp only [induceLoopK, induceLoop, trackStepK_all, ih]

theorem inducePhaseK_all (O : LengthsOps σ T) (fuel : ℕ) (limit : ℤ) (E : IET T) (s : σ) :
    E.inducePhaseK .all O fuel limit s = E.inducePhase O fuel limit s := by
  simp only [inducePhaseK, inducePhase, saf0K_all, induceLoopK_all]

theorem induceFinishK_all (L : PPL) (O : LengthsOps σ T) (found : Bool) (E : IET T) (s : σ) :
    E.induceFinishK .all L O found s = E.induceFinish L O found s := by
  simp only [induceFinishK, induceFinish, reduceK_all, boshernitzanNoPeriodicTrajectoryK_all, Checks.all_asserts, assertK_true, ok_bind]
  rfl

theorem induceK_all (L : PPL) (O : LengthsOps σ T) (fuel : ℕ) (limit : ℤ) (E : IET T) (s : σ) :
    E.induceK .all L O fuel limit s = E.induce L O fuel limit s := by
  simp only [induceK, induce, inducePhaseK_all, induceFinishK_all]

end IET

theorem Op.callK_all {σ T : Type} [CommRing T] [LinearOrder T] (L : PPL) (O : LengthsOps σ T) (fuel : ℕ) (op : Op) (E : IET T) (s : σ) :
    op.callK .all L O fuel E s = op.call L O fuel E s := by
  cases op <;> simp only [callK, call, IET.reduceK_all, IET.induceK_all, IET.safInvariantK_all, IET.boshernitzanNoPeriodicTrajectoryK_all]

theorem Op.execK_all {σ T : Type} [CommRing T] [LinearOrder T] (L : PPL) (O : LengthsOps σ T) (fuel : ℕ) (op : Op) (w : World σ T) :
    op.execK .all L O fuel w = op.exec L O fuel w := by
  simp only [execK, exec, callK_all]
  rfl

theorem HalfEdge.eqK_all (h g : HalfEdge) : h.eqK .all g = h.eq g := rfl

namespace Decomp

variable {σ T : Type}

theorem makeK_all [Zero T] [DecidableEq T] (O : LengthsOps σ T) (E : IET T) (s : σ) : makeK .all O E s = make O E s := by
  simp only [makeK, make, IET.mkK_all, LWC.opsK_all]

theorem afterK_all (l : Label) (ls : List Label) : afterK .all l ls = after l ls := by
  induction ls with
  | nil => rfl
  | cons c rest ih => simp only [afterK, after, ih]

theorem nextK_all (D : Decomp σ T) (h : HalfEdge) : D.nextK .all h = D.next h := by
  simp only [nextK, next, afterK_all]

theorem previousK_all (D : Decomp σ T) (h : HalfEdge) : D.previousK .all h = D.previous h := by
  simp only [previousK, previous, afterK_all]

theorem componentK_all (D : Decomp σ T) (h : HalfEdge) : D.componentK .all h = D.component h := by
  cases h with
  | mk i l t => cases t <;> simp [componentK, component]

theorem chainTopK_all (cs : List Conn) : ∀ s, chainTopK .all cs s = chainTop cs s := by
  induction cs with
  | nil => intro s; rfl
  | cons c cs ih => intro s; simp [chainTopK, chainTop, ih]

theorem chainBottomK_all (cs : List Conn) : ∀ s, chainBottomK .all cs s = chainBottom cs s := by
  induction cs with
  | nil => intro s; rfl
  | cons c cs ih => intro s; simp [chainBottomK, chainBottom, ih]

theorem makeAtTopK_all (D : Decomp σ T) (l : Label) : D.makeAtTopK .all l = D.makeAtTop l := by
  simp only [makeAtTopK, makeAtTop, chainTopK_all]

theorem makeAtBottomK_all (D : Decomp σ T) (l : Label) : D.makeAtBottomK .all l = D.makeAtBottom l := by
  simp only [makeAtBottomK, makeAtBottom, chainBottomK_all]

theorem separatrixK_all (D : Decomp σ T) (h : HalfEdge) : D.separatrixK .all h = D.separatrix h := by
  simp only [separatrixK, separatrix, nextK_all, makeAtTopK_all, makeAtBottomK_all]
  rfl

theorem perimeterK_all (D : Decomp σ T) (i : ℕ) : D.perimeterK .all i = D.perimeter i := by
  simp [perimeterK, perimeter]

theorem component_cases (D : Decomp σ T) (h : HalfEdge) : D.component h = .ok h.comp ∨ ∃ e, D.component h = .error e := by
  cases hc : D.component h with
  | error e => exact Or.inr ⟨e, rfl⟩
  | ok r =>
    left
    have key : ∀ x : M (List HalfEdge), (x >>= fun c => assertM (decide (h ∈ c)) >>= fun _ => (pure h.comp : M ℕ)) = .ok r → r = h.comp := by
      intro x hx
      cases x with
      | error e => cases hx
      | ok c =>
        by_cases h2 : h ∈ c
        · simp [assertM, h2, pure, Except.pure] at hx; exact hx.symm
        · simp [assertM, h2] at hx
    simp only [component] at hc
    split at hc
    · rw [key _ hc]
    · rw [key _ hc]

theorem walkClockwiseK_all (n : ℕ) : ∀ (D : Decomp σ T) (h dst : HalfEdge), D.walkClockwiseK .all n h dst = D.walkClockwise n h dst := by
  induction n with
  | zero => intro D h dst; rfl
  | succ n ih =>
    intro D h dst
    simp only [walkClockwiseK, walkClockwise, componentK_all, ih, Checks.all_asserts, assertK_true]
    rcases component_cases D h with h1 | ⟨e, h1⟩ <;> rcases component_cases D dst with h2 | ⟨e', h2⟩ <;>
      simp only [h1, h2, ok_bind, error_bind, bind_bind, pure, Except.pure] <;> rfl

theorem checkSeparatricesK_all (all : List Conn) : checkSeparatricesK .all all = checkSeparatrices all := rfl

theorem checkK_all (D : Decomp σ T) : D.checkK .all = D.check := rfl

theorem boshernitzanCostK_all (O : LengthsOps σ T) (E : IET T) (s : LWC σ) :
    boshernitzanCostK .all O E s = boshernitzanCost O E s := by
  simp only [boshernitzanCostK, boshernitzanCost, IET.safInvariantK_all, LWC.opsK_all]

theorem registerSeparatingK_all (D : Decomp σ T) (i : ℕ) (c : Conn) (j : ℕ) :
    D.registerSeparatingK .all i c j = D.registerSeparating i c j := by
  simp [registerSeparatingK, registerSeparating, bind_assoc]

theorem separatingK_all (D : Decomp σ T) (i : ℕ) (b t : Label) (E : IET T) : D.separatingK .all i b t E = D.separating i b t E := by
  simp only [separatingK, separating, walkClockwiseK_all, makeAtBottomK_all, makeAtTopK_all, registerSeparatingK_all]

theorem nonSeparatingK_all (D : Decomp σ T) (i : ℕ) (b t : Label) : D.nonSeparatingK .all i b t = D.nonSeparating i b t := by
  simp [nonSeparatingK, nonSeparating, makeAtBottomK_all, makeAtTopK_all, bind_assoc]

theorem concludeK_all (D : Decomp σ T) (i : ℕ) (step : InductionStep T) : D.concludeK .all i step = D.conclude i step := by
  simp only [concludeK, conclude, separatingK_all, nonSeparatingK_all]
  rfl

variable [CommRing T] [LinearOrder T]

theorem chunksK_all (L : PPL) (O : LengthsOps σ T) (cost : Option ℤ) (n : ℕ) :
    ∀ (limit : ℤ) (E : IET T) (s : LWC σ), chunksK .all L O cost n limit E s = chunks L O cost n limit E s := by
  induction n with
  | zero => intro limit E s; rfl
  | succ n ih => intro limit E s; simp only [chunksK, chunks, IET.induceK_all, LWC.opsK_all, ih]

theorem decompositionStepBoundedK_all (L : PPL) (O : LengthsOps σ T) (limit : ℤ) (i : ℕ) (D : Decomp σ T) :
    D.decompositionStepBoundedK .all L O limit i = D.decompositionStepBounded L O limit i := by
  simp only [decompositionStepBoundedK, decompositionStepBounded, boshernitzanCostK_all, chunksK_all, concludeK_all,
    Checks.all_asserts, assertK_true, ok_bind]

theorem unlimitedK_all (L : PPL) (O : LengthsOps σ T) (cost : Option ℤ) (i : ℕ) (n : ℕ) :
    ∀ (limit : ℤ) (D : Decomp σ T), unlimitedK .all L O cost i n limit D = unlimited L O cost i n limit D := by
  induction n with
  | zero => intro limit D; rfl
  | succ n ih => intro limit D; simp only [unlimitedK, unlimited, decompositionStepBoundedK_all, ih]; rfl

theorem decompositionStepK_all (L : PPL) (O : LengthsOps σ T) (fuel : ℕ) (limit : ℤ) (i : ℕ) (D : Decomp σ T) :
    D.decompositionStepK .all L O fuel limit i = D.decompositionStep L O fuel limit i := by
  simp only [decompositionStepK, decompositionStep, boshernitzanCostK_all, unlimitedK_all, decompositionStepBoundedK_all,
    Checks.all_asserts, assertK_true, ok_bind]

theorem decomposeComponentK_all (L : PPL) (O : LengthsOps σ T) (target : Comp T → Bool) (limit : ℤ) (n : ℕ) :
    ∀ (i : ℕ) (D : Decomp σ T), D.decomposeComponentK .all L O target limit n i = D.decomposeComponent L O target limit n i := by
  induction n with
  | zero => intro i D; rfl
  | succ n ih => intro i D; simp only [decomposeComponentK, decomposeComponent, decompositionStepK_all, ih]; rfl

theorem decomposeAllK_all (L : PPL) (O : LengthsOps σ T) (target : Comp T → Bool) (limit : ℤ) (fuel : ℕ) (is : List ℕ) :
    ∀ D : Decomp σ T, decomposeAllK .all L O target limit fuel is D = decomposeAll L O target limit fuel is D := by
  induction is with
  | nil => intro D; rfl
  | cons i is ih => intro D; simp only [decomposeAllK, decomposeAll, decomposeComponentK_all, ih]

theorem decomposeK_all (L : PPL) (O : LengthsOps σ T) (target : Comp T → Bool) (limit : ℤ) (fuel : ℕ) (D : Decomp σ T) :
    D.decomposeK .all L O target limit fuel = D.decompose L O target limit fuel := by
  simp only [decomposeK, decompose, decomposeAllK_all]

theorem injectK_all (D : Decomp σ T) (h : HalfEdge) (left right : List (Label × Label)) :
    D.injectK .all h left right = D.inject h left right := by
  simp [injectK, inject, checkK_all]

theorem ietK_all (O : LengthsOps σ T) (A : Arith T) (i : ℕ) (D : Decomp σ T) : ietK .all O A i D = iet O A i D := by
  simp only [ietK, iet, IET.mkK_all, SLengths.opsK_all]

end Decomp

/-! ### Some checks disabled -/

/-- What may be reported because of a check that is disabled in `K`.  (Evaluating a condition may access something that does not exist.) -/
def Weak (K : Checks) (e : Err) : Prop :=
  e = .assertFailed ∨ e = .outOfRange ∨ e = .ub ∨ (e = .invalidArgument ∧ K.arguments = false)

/-- The outcomes are the same unless there was an error because of a check that is disabled in `K`. -/
def Ref (K : Checks) {α : Type} (x y : M α) : Prop := x = y ∨ ∃ e, Weak K e ∧ x = .error e

namespace Ref

variable {K : Checks} {α β : Type}

theorem refl (x : M α) : Ref K x x := Or.inl rfl

theorem of_eq {x y : M α} (h : x = y) : Ref K x y := Or.inl h

theorem bind {x y : M α} {f g : α → M β} (h : Ref K x y) (hf : ∀ a, Ref K (f a) (g a)) : Ref K (x >>= f) (y >>= g) := by
  rcases h with rfl | ⟨e, he, rfl⟩
  · cases x with
    | error e => exact Or.inl rfl
    | ok a => exact hf a
  · exact Or.inr ⟨e, he, rfl⟩

theorem ite {c : Prop} [Decidable c] {x y x' y' : M α} (h : Ref K x y) (h' : Ref K x' y') :
    Ref K (if c then x else x') (if c then y else y') := by
  split
  · exact h
  · exact h'

theorem fail {y : M α} : Ref K (.error .assertFailed) y := Or.inr ⟨_, Or.inl rfl, rfl⟩

theorem mapM {γ : Type} {f g : γ → M α} (h : ∀ a, Ref K (f a) (g a)) (l : List γ) : Ref K (l.mapM f) (l.mapM g) := by
  induction l with
  | nil => exact refl _
  | cons a l ih =>
    simp only [List.mapM_cons]
    exact bind (h a) fun b => bind ih fun _ => refl _

theorem foldlM {γ : Type} {f g : α → γ → M α} (h : ∀ a b, Ref K (f a b) (g a b)) (l : List γ) :
    ∀ a, Ref K (l.foldlM f a) (l.foldlM g a) := by
  induction l with
  | nil => intro a; exact refl _
  | cons b l ih =>
    intro a
    simp only [List.foldlM_cons]
    exact bind (h a b) fun a => ih a

theorem forM {γ : Type} {f g : γ → M Unit} (h : ∀ a, Ref K (f a) (g a)) (l : List γ) : Ref K (l.forM f) (l.forM g) := by
  induction l with
  | nil => exact refl _
  | cons a l ih =>
    show Ref K (f a >>= fun _ => l.forM f) (g a >>= fun _ => l.forM g)
    exact bind (h a) fun _ => ih

theorem allM {γ : Type} {f g : γ → M Bool} (h : ∀ a, Ref K (f a) (g a)) (l : List γ) : Ref K (IET.allM f l) (IET.allM g l) := by
  induction l with
  | nil => exact refl _
  | cons a l ih =>
    simp only [IET.allM]
    exact bind (h a) fun b => ite ih (refl _)

/-- A check may be skipped unless evaluating its condition reports some other error. -/
theorem assert (k : Bool) {x y : M Bool} (h : Ref K x y) (hx : ∀ e, x = .error e → Weak K e) : Ref K (assertK true x) (assertK k y) := by
  cases k
  · cases x with
    | error e => exact Or.inr ⟨e, hx e rfl, rfl⟩
    | ok b =>
      cases b
      · exact fail
      · exact refl _
  · exact bind h fun _ => refl _

theorem assert_ok (k b : Bool) : Ref K (assertK true (.ok b)) (assertK k (.ok b)) :=
  assert k (refl _) (by intro e h; cases h)

end Ref

/-- Errors of a sequence of computations. -/
theorem Weak.bind {K : Checks} {α β : Type} {x : M α} {f : α → M β} (hx : ∀ e, x = .error e → Weak K e)
    (hf : ∀ a e, f a = .error e → Weak K e) (e : Err) (h : x >>= f = .error e) : Weak K e := by
  cases x with
  | error e' => exact hx e (by simpa using h)
  | ok a => exact hf a e h

theorem Weak.ok {K : Checks} {α : Type} {a : α} (e : Err) (h : (.ok a : M α) = .error e) : Weak K e := by cases h

theorem Weak.mapM {K : Checks} {α β : Type} {f : α → M β} (hf : ∀ a e, f a = .error e → Weak K e) (l : List α) :
    ∀ e, l.mapM f = .error e → Weak K e := by
  induction l with
  | nil => intro e h; cases h
  | cons a l ih =>
    simp only [List.mapM_cons]
    exact Weak.bind (hf a) fun b => Weak.bind ih fun _ => Weak.ok

/-- An implementation of the lengths and the same with checks disabled. -/
structure OpsRef (K : Checks) {σ T : Type} (O O' : LengthsOps σ T) : Prop where
  push : ∀ l s, Ref K (O.push l s) (O'.push l s)
  pop : ∀ s, Ref K (O.pop s) (O'.pop s)
  subtract : ∀ c l s, Ref K (O.subtract c l s) (O'.subtract c l s)
  subtractRepeated : ∀ c l s, Ref K (O.subtractRepeated c l s) (O'.subtractRepeated c l s)
  coefficients : O.coefficients = O'.coefficients
  cmp : O.cmp = O'.cmp
  cmp2 : O.cmp2 = O'.cmp2
  get : O.get = O'.get
  forget : O.forget = O'.forget
  get_error : ∀ l s e, O.get l s = .error e → Weak K e

namespace SLengths

variable {T : Type} [CommRing T] [LinearOrder T]

theorem at_error {K : Checks} (s : SLengths T) (l : Label) (e : Err) (h : s.at' l = .error e) : Weak K e := by
  unfold at' at h
  split at h
  · cases h
  · injection h with h; exact Or.inr (Or.inl h.symm)

theorem subtractRepeatedLoop_ref (K : Checks) (a : Label) (ls : List Label) :
    ∀ (stop : Label) (s : SLengths T), Ref K (subtractRepeatedLoopK .all a ls stop s) (subtractRepeatedLoopK K a ls stop s) := by
  induction ls with
  | nil => intro stop s; exact Ref.refl _
  | cons l ls ih =>
    intro stop s
    refine Ref.bind (Ref.refl _) fun x => Ref.bind (Ref.refl _) fun y => Ref.ite (Ref.refl _) ?_
    refine Ref.bind (Ref.refl _) fun x => Ref.bind (Ref.refl _) fun y => Ref.bind (Ref.refl _) fun s => ?_
    exact Ref.bind (Ref.assert _ (Ref.refl _) (Weak.bind (at_error _ _) fun _ => Weak.ok)) fun _ => ih _ _

theorem ops_ref (K : Checks) (A : Arith T) : OpsRef K (ops A) (opsK K A) := by
  rw [← opsK_all]
  refine ⟨fun _ _ => Ref.refl _, fun _ => Ref.refl _, fun _ a s => ?_, fun _ a s => ?_, rfl, rfl, rfl, rfl, rfl,
    fun l s e h => at_error s l e h⟩
  · refine Ref.bind (Ref.refl _) fun x => Ref.bind (Ref.refl _) fun y => Ref.bind (Ref.refl _) fun s => ?_
    exact Ref.bind (Ref.assert _ (Ref.refl _) (Weak.bind (at_error _ _) fun _ => Weak.ok)) fun _ => Ref.refl _
  · show Ref K (subtractRepeatedK .all A a s) (subtractRepeatedK K A a s)
    unfold subtractRepeatedK
    cases s.stack.getLast? with
    | none => exact Ref.refl _
    | some last =>
      refine Ref.bind (Ref.refl _) fun x => Ref.bind (Ref.refl _) fun y => Ref.bind (Ref.refl _) fun q => ?_
      refine Ref.bind (Ref.refl _) fun x => Ref.bind (Ref.refl _) fun y => Ref.bind (Ref.refl _) fun s => ?_
      refine Ref.bind (Ref.assert _ (Ref.refl _) (Weak.bind (at_error _ _) fun _ => Weak.ok)) fun _ => ?_
      refine Ref.bind (Ref.refl _) fun x => Ref.ite ?_ ?_
      · exact Ref.bind (Ref.refl _) fun x => Ref.bind (Ref.refl _) fun y => Ref.bind (Ref.refl _) fun s => subtractRepeatedLoop_ref K a _ _ _
      · exact subtractRepeatedLoop_ref K a _ _ _

end SLengths

namespace LWC

variable {σ T : Type}

theorem ops_ref {K : Checks} {O O' : LengthsOps σ T} (h : OpsRef K O O') : OpsRef K (ops O) (opsK K O') := by
  rw [← opsK_all]
  refine ⟨fun l s => ?_, fun s => ?_, fun ctx m s => ?_, fun ctx m s => ?_, ?_, ?_, ?_, ?_, ?_, ?_⟩
  · exact Ref.bind (Ref.assert_ok _ _) fun _ => Ref.bind (h.push _ _) fun _ => Ref.refl _
  · exact Ref.bind (Ref.assert_ok _ _) fun _ => Ref.bind (h.pop _) fun _ => Ref.refl _
  · show Ref K (subtract O ctx m s) (subtract O' ctx m s)
    unfold subtract
    cases s.stack with
    | nil => exact Ref.refl _
    | cons b rest => exact Ref.bind (h.subtract _ _ _) fun _ => Ref.refl _
  · exact Ref.bind (Ref.assert_ok _ _) fun _ => Ref.bind (h.subtractRepeated _ _ _) fun _ => Ref.refl _
  · simp only [opsK, h.coefficients]
  · simp only [opsK, h.cmp]
  · simp only [opsK, h.cmp2]
  · simp only [opsK, h.get]
  · simp only [opsK, h.forget]
  · exact fun l s e he => h.get_error l s.inner e he

end LWC

theorem linearExpressionFromVector_ref (K : Checks) (vec : List ℚ) (rhs : ℚ) :
    Ref K (linearExpressionFromVectorK .all vec rhs) (linearExpressionFromVectorK K vec rhs) :=
  Ref.bind (Ref.mapM (fun _ => Ref.bind (Ref.assert_ok _ _) fun _ => Ref.refl _) _) fun _ =>
    Ref.bind (Ref.assert_ok _ _) fun _ => Ref.refl _

theorem Subspace.ofEquations_ref (K : Checks) (equations : List (List ℚ)) (y : List ℚ) :
    Ref K (ofEquationsK .all equations y) (ofEquationsK K equations y) := by
  unfold ofEquationsK
  by_cases h : equations.length = y.length
  · simp only [h, ne_eq, not_true_eq_false, decide_false, Bool.and_false, Bool.false_eq_true, if_false, lt_irrefl]
    exact Ref.bind (Ref.mapM (fun p => Ref.bind (linearExpressionFromVector_ref K _ _) fun _ => Ref.refl _) _) fun _ => Ref.refl _
  · cases hK : K.arguments with
    | true => simp only [Checks.all_arguments, h, ne_eq, not_false_eq_true, decide_true, Bool.and_true, if_true]; exact Ref.refl _
    | false =>
      simp only [Checks.all_arguments, h, ne_eq, not_false_eq_true, decide_true, Bool.and_true, if_true]
      exact Or.inr ⟨_, Or.inr (Or.inr (Or.inr ⟨rfl, hK⟩)), rfl⟩

namespace IET

variable {σ T : Type} {K : Checks} {O O' : LengthsOps σ T}

theorem mk_ref [Zero T] [DecidableEq T] (h : OpsRef K O O') (top bottom : List Label) (s : σ) :
    Ref K (mkK .all O top bottom s) (mkK K O' top bottom s) := by
  unfold mkK
  rw [← h.get]
  refine Ref.bind (Ref.assert_ok _ _) fun _ => Ref.bind (Ref.assert_ok _ _) fun _ => Ref.bind (Ref.assert_ok _ _) fun _ => ?_
  refine Ref.bind (Ref.assert _ (Ref.refl _) (Weak.bind (Weak.mapM (fun l => h.get_error l s) _) fun _ => Weak.ok)) fun _ => ?_
  exact Ref.bind (Ref.assert_ok _ _) fun _ => Ref.refl _

theorem wedge_ref (v w : List ℚ) : Ref K (wedgeK .all v w) (wedgeK K v w) := by
  unfold wedgeK
  by_cases h : v.length = w.length
  · simp only [h, ne_eq, not_true_eq_false, decide_false, Bool.and_false]
    exact Ref.refl _
  · cases hK : K.arguments with
    | true => exact Ref.refl _
    | false =>
      simp only [Checks.all_arguments, h, ne_eq, not_false_eq_true, decide_true, Bool.and_true, if_true]
      exact Or.inr ⟨_, Or.inr (Or.inr (Or.inr ⟨rfl, hK⟩)), rfl⟩

theorem addVec_ref (v w : List ℚ) : Ref K (addVecK .all v w) (addVecK K v w) :=
  Ref.bind (Ref.assert_ok _ _) fun _ => Ref.refl _

theorem subVec_ref (v w : List ℚ) : Ref K (subVecK .all v w) (subVecK K v w) :=
  Ref.bind (Ref.assert_ok _ _) fun _ => Ref.refl _

theorem translationLoop_ref {f g : List ℚ → List ℚ → M (List ℚ)} (h : ∀ v w, Ref K (f v w) (g v w)) (m : CoeffMap) (stop : Label)
    (ts : List Label) : ∀ v, Ref K (translationLoop f m stop ts v) (translationLoop g m stop ts v) := by
  induction ts with
  | nil => intro v; exact Ref.refl _
  | cons t ts ih =>
    intro v
    exact Ref.ite (Ref.refl _) (Ref.bind (Ref.refl _) fun _ => Ref.bind (h _ _) fun _ => ih _)

theorem translation_ref (E : IET T) (top bottom : Label) (m : CoeffMap) :
    Ref K (E.translationK .all top bottom m) (E.translationK K top bottom m) := by
  unfold translationK
  cases m with
  | nil => exact Ref.refl _
  | cons p m =>
    exact Ref.bind (translationLoop_ref subVec_ref _ _ _ _) fun _ => translationLoop_ref addVec_ref _ _ _ _

theorem translations_ref (h : OpsRef K O O') (E : IET T) (s : σ) : Ref K (E.translationsK .all O s) (E.translationsK K O' s) := by
  unfold translationsK labelToCoefficients IET.coefficients
  rw [h.coefficients]
  exact Ref.bind (Ref.refl _) fun _ => Ref.mapM (fun _ => translation_ref _ _ _ _) _

theorem rawSaf_ref (h : OpsRef K O O') (E : IET T) (s : σ) : Ref K (E.rawSafK .all O s) (E.rawSafK K O' s) := by
  unfold rawSafK IET.coefficients
  rw [h.coefficients]
  refine Ref.bind (Ref.refl _) fun cs => ?_
  cases cs with
  | nil => exact Ref.refl _
  | cons c cs =>
    refine Ref.ite (Ref.refl _) (Ref.bind (translations_ref h E s) fun ts => ?_)
    exact Ref.foldlM (fun a b => Ref.bind (wedge_ref _ _) fun _ => addVec_ref _ _) _ _

theorem saf_ref (h : OpsRef K O O') (E : IET T) (s : σ) : Ref K (E.safK .all O s) (E.safK K O' s) := by
  unfold safK
  cases E.safCache with
  | some v => exact Ref.refl _
  | none => exact Ref.bind (rawSaf_ref h E s) fun _ => Ref.refl _

theorem saf0_ref (h : OpsRef K O O') (E : IET T) (s : σ) : Ref K (E.saf0K .all O s) (E.saf0K K O' s) :=
  Ref.bind (saf_ref h E s) fun _ => Ref.refl _

theorem safInvariant_ref (h : OpsRef K O O') (E : IET T) (s : σ) : Ref K (E.safInvariantK .all O s) (E.safInvariantK K O' s) :=
  Ref.bind (saf_ref h E s) fun _ => Ref.refl _

theorem boshernitzanEquations_ref (h : OpsRef K O O') (E : IET T) (s : σ) :
    Ref K (E.boshernitzanEquationsK .all O s) (E.boshernitzanEquationsK K O' s) :=
  Ref.bind (translations_ref h E s) fun _ => Ref.refl _

theorem boshernitzanNoPeriodicTrajectory_ref (h : OpsRef K O O') (L : PPL) (E : IET T) (s : σ) :
    Ref K (E.boshernitzanNoPeriodicTrajectoryK .all L O s) (E.boshernitzanNoPeriodicTrajectoryK K L O' s) := by
  refine Ref.bind (saf0_ref h E s) ?_
  rintro ⟨zero, E⟩
  refine Ref.ite (Ref.refl _) (Ref.ite (Ref.refl _) ?_)
  exact Ref.bind (boshernitzanEquations_ref h E s) fun _ => Ref.bind (Subspace.ofEquations_ref K _ _) fun _ => Ref.refl _

theorem boshernitzanSaddleConnectionValues_ref (h : OpsRef K O O') (hK : K.arguments = true) (E : IET T) (top bottom : Label) (s : σ) :
    Ref K (E.boshernitzanSaddleConnectionValuesK .all O top bottom s) (E.boshernitzanSaddleConnectionValuesK K O' top bottom s) := by
  unfold boshernitzanSaddleConnectionValuesK endPointK labelToCoefficients IET.coefficients
  rw [h.coefficients, hK]
  exact Ref.bind (Ref.refl _) fun _ => Ref.bind (Ref.refl _) fun _ => Ref.bind (Ref.refl _) fun _ =>
    Ref.bind (translation_ref _ _ _ _) fun _ => Ref.refl _

theorem boshernitzanNoSaddleConnection₂_ref (h : OpsRef K O O') (hK : K.arguments = true) (L : PPL) (E : IET T) (top bottom : Label)
    (s : σ) :
    Ref K (E.boshernitzanNoSaddleConnection₂K .all L O top bottom s) (E.boshernitzanNoSaddleConnection₂K K L O' top bottom s) :=
  Ref.bind (boshernitzanSaddleConnectionValues_ref h hK E top bottom s) fun _ => Ref.ite (Ref.refl _)
    (Ref.bind (boshernitzanEquations_ref h E s) fun _ => Ref.bind (Subspace.ofEquations_ref K _ _) fun _ => Ref.refl _)

theorem boshernitzanNoSaddleConnection_ref (h : OpsRef K O O') (hK : K.arguments = true) (L : PPL) (E : IET T) (s : σ) :
    Ref K (E.boshernitzanNoSaddleConnectionK .all L O s) (E.boshernitzanNoSaddleConnectionK K L O' s) :=
  Ref.ite (Ref.refl _) (Ref.allM (fun _ => Ref.allM (fun _ => boshernitzanNoSaddleConnection₂_ref h hK L E _ _ s) _) _)

theorem reduceLoop_ref (ts : List Label) : ∀ (bs marked : List Label) (x y : Int) (n : ℕ),
    Ref K (reduceLoopK .all ts bs marked x y n) (reduceLoopK K ts bs marked x y n) := by
  induction ts with
  | nil => intro bs marked x y n; exact Ref.fail
  | cons t ts ih =>
    intro bs marked x y n
    cases bs with
    | nil => exact Ref.fail
    | cons b bs =>
      simp only [reduceLoopK]
      exact Ref.ite (Ref.refl _) (ih _ _ _ _ _)

theorem reduce_ref [Zero T] [DecidableEq T] (h : OpsRef K O O') (E : IET T) (s : σ) : Ref K (E.reduceK .all O s) (E.reduceK K O' s) := by
  refine Ref.bind (reduceLoop_ref _ _ _ _ _ _) fun k => Ref.ite (Ref.bind (Ref.assert_ok _ _) fun _ => Ref.refl _) ?_
  exact Ref.bind (Ref.assert_ok _ _) fun _ => Ref.bind (mk_ref h _ _ _) fun _ => Ref.refl _

theorem zorichLoop_ref (h : OpsRef K O O') (ctx : Ctx) (a : Label) (bs : List Label) :
    ∀ (rev : List Label) (s : σ), Ref K (zorichLoop O ctx a rev bs s) (zorichLoop O' ctx a rev bs s) := by
  induction bs with
  | nil => intro rev s; exact Ref.refl _
  | cons b bs ih =>
    intro rev s
    unfold zorichLoop
    rw [h.cmp]
    refine Ref.ite (Ref.bind (h.subtractRepeated _ _ _) fun _ => Ref.refl _) ?_
    refine Ref.bind (h.push _ _) fun s => Ref.bind (Ref.refl _) fun c => Ref.ite ?_ (ih _ _)
    exact Ref.bind (h.pop _) fun _ => Ref.bind (h.subtract _ _ _) fun _ => Ref.refl _

theorem zorichInduction_ref (h : OpsRef K O O') (E : IET T) (s : σ) : Ref K (E.zorichInduction O s) (E.zorichInduction O' s) := by
  unfold zorichInduction
  rw [h.cmp2]
  cases E.top with
  | nil => exact Ref.refl _
  | cons a top =>
    cases hb : E.bottom with
    | nil => exact Ref.refl _
    | cons b bottom => exact Ref.ite (Ref.refl _) (Ref.bind (zorichLoop_ref h _ _ _ _ _) fun _ => Ref.refl _)

variable [CommRing T] [LinearOrder T]

theorem trackerLoop_eq (h : OpsRef K O O') (E : IET T) (s : σ) : E.trackerLoop O s = E.trackerLoop O' s := by
  have h1 : ∀ ls lengths, allSimilar O lengths s ls = allSimilar O' lengths s ls := by
    intro ls lengths
    induction ls with
    | nil => rfl
    | cons a rest ih =>
      cases rest with
      | nil => rfl
      | cons b rest => simp only [allSimilar, ih, h.get]
  simp only [trackerLoop, trackerReset, h.forget, h1]

theorem trackStep_ref (h : OpsRef K O O') (z : Bool) (E : IET T) (s : σ) : Ref K (E.trackStepK .all O z s) (E.trackStepK K O' z s) := by
  refine Ref.ite (Ref.bind (saf_ref h E s) ?_) (Ref.refl _)
  rintro ⟨v, E⟩
  exact Ref.ite (Ref.refl _) (Ref.of_eq (trackerLoop_eq h E s))

theorem induceLoop_ref (h : OpsRef K O O') (z : Bool) (n : ℕ) :
    ∀ (E : IET T) (s : σ), Ref K (induceLoopK .all O z n E s) (induceLoopK K O' z n E s) := by
  induction n with
  | zero => intro E s; exact Ref.refl _
  | succ n ih =>
    intro E s
    refine Ref.bind (trackStep_ref h z E s) ?_
    rintro ⟨loop, E⟩
    refine Ref.ite (Ref.refl _) (Ref.bind (zorichInduction_ref h E s) ?_)
    rintro ⟨found, E, s⟩
    refine Ref.ite (Ref.refl _) (Ref.bind (zorichInduction_ref h _ s) ?_)
    rintro ⟨found, E, s⟩
    exact Ref.ite (Ref.refl _) (ih _ _)

theorem inducePhase_ref (h : OpsRef K O O') (fuel : ℕ) (limit : ℤ) (E : IET T) (s : σ) :
    Ref K (E.inducePhaseK .all O fuel limit s) (E.inducePhaseK K O' fuel limit s) := by
  refine Ref.ite (Ref.refl _) (Ref.bind (saf0_ref h E s) ?_)
  rintro ⟨zero, E⟩
  exact Ref.ite (Ref.bind (induceLoop_ref h _ _ _ _) fun _ => Ref.refl _) (induceLoop_ref h _ _ _ _)

theorem induceFinish_ref (h : OpsRef K O O') (L : PPL) (found : Bool) (E : IET T) (s : σ) :
    Ref K (E.induceFinishK .all L O found s) (E.induceFinishK K L O' found s) := by
  refine Ref.bind (reduce_ref h E s) ?_
  rintro ⟨right, E⟩
  cases right with
  | some right => exact Ref.refl _
  | none =>
    dsimp only
    rw [h.cmp2]
    cases E.top with
    | nil => exact Ref.refl _
    | cons t top =>
      cases E.bottom with
      | nil => exact Ref.refl _
      | cons b bottom =>
        refine Ref.bind (Ref.refl _) fun c => Ref.ite (Ref.refl _) (Ref.bind (Ref.assert_ok _ _) fun _ => ?_)
        exact Ref.bind (boshernitzanNoPeriodicTrajectory_ref h L _ _) fun _ => Ref.refl _

theorem induce_ref (h : OpsRef K O O') (L : PPL) (fuel : ℕ) (limit : ℤ) (E : IET T) (s : σ) :
    Ref K (E.induceK .all L O fuel limit s) (E.induceK K L O' fuel limit s) := by
  refine Ref.ite (Ref.refl _) (Ref.bind (inducePhase_ref h fuel limit E s) ?_)
  rintro ⟨loopEnd, E, s⟩
  exact Ref.ite (Ref.refl _) (Ref.bind (induceFinish_ref h L _ E s) fun _ => Ref.refl _)

end IET

theorem Op.call_ref {σ T : Type} [CommRing T] [LinearOrder T] {K : Checks} {O O' : LengthsOps σ T} (h : OpsRef K O O') (L : PPL) (fuel : ℕ)
    (op : Op) (E : IET T) (s : σ) : Ref K (op.callK .all L O fuel E s) (op.callK K L O' fuel E s) := by
  cases op with
  | zorichInduction i => exact Ref.bind (IET.zorichInduction_ref h E s) fun _ => Ref.refl _
  | swap i => exact Ref.refl _
  | reduce i => exact Ref.bind (IET.reduce_ref h E s) fun _ => Ref.refl _
  | induce i limit => exact Ref.bind (IET.induce_ref h L fuel limit E s) fun _ => Ref.refl _
  | safInvariant i => exact Ref.bind (IET.safInvariant_ref h E s) fun _ => Ref.refl _
  | boshernitzanNoPeriodicTrajectory i => exact Ref.bind (IET.boshernitzanNoPeriodicTrajectory_ref h L E s) fun _ => Ref.refl _

theorem Op.exec_ref {σ T : Type} [CommRing T] [LinearOrder T] {K : Checks} {O O' : LengthsOps σ T} (h : OpsRef K O O') (L : PPL) (fuel : ℕ)
    (op : Op) (w : World σ T) : Ref K (op.exec L O fuel w) (op.execK K L O' fuel w) := by
  rw [← Op.execK_all]
  unfold execK
  cases w.pieces[op.index]? with
  | none => exact Ref.refl _
  | some E => exact Ref.bind (Op.call_ref h L fuel op E w.lengths) fun _ => Ref.refl _

namespace Decomp

variable {σ T : Type} {K : Checks} {O O' : LengthsOps σ T}

theorem comp_error (D : Decomp σ T) (i : ℕ) (e : Err) (h : D.comp i = .error e) : Weak K e := by
  unfold comp at h
  split at h
  · cases h
  · injection h with h; exact Or.inr (Or.inr (Or.inl h.symm))

theorem connections_error (D : Decomp σ T) (l : Label) (e : Err) (h : D.connections l = .error e) : Weak K e := by
  unfold connections ConnMap.at' at h
  split at h
  · cases h
  · injection h with h; exact Or.inr (Or.inl h.symm)

theorem headM_error (l : List Label) (e : Err) (h : headM l = .error e) : Weak K e := by
  unfold headM at h
  split at h
  · injection h with h; exact Or.inr (Or.inr (Or.inl h.symm))
  · cases h

theorem left_error (D : Decomp σ T) (i : ℕ) : ∀ e, D.left i = .error e → Weak K e :=
  Weak.bind (comp_error D i) fun _ => Weak.bind (headM_error _) fun _ => Weak.bind (connections_error D _) fun _ =>
    Weak.bind (headM_error _) fun _ => Weak.bind (connections_error D _) fun _ => Weak.ok

theorem right_error (D : Decomp σ T) (i : ℕ) : ∀ e, D.right i = .error e → Weak K e :=
  Weak.bind (comp_error D i) fun _ => Weak.bind (headM_error _) fun _ => Weak.bind (connections_error D _) fun _ =>
    Weak.bind (headM_error _) fun _ => Weak.bind (connections_error D _) fun _ => Weak.ok

theorem contour_error (D : Decomp σ T) (h : HalfEdge) :
    ∀ e, (do let contour ← if h.top then D.topContour h.comp else D.bottomContour h.comp
             return decide (h ∈ contour)) = (.error e : M Bool) → Weak K e := by
  cases h with
  | mk i l t =>
    cases t
    · exact Weak.bind (Weak.bind (comp_error D i) fun _ => Weak.ok) fun _ => Weak.ok
    · exact Weak.bind (Weak.bind (comp_error D i) fun _ => Weak.ok) fun _ => Weak.ok

theorem component_ref (D : Decomp σ T) (h : HalfEdge) : Ref K (D.componentK .all h) (D.componentK K h) :=
  Ref.bind (Ref.assert _ (Ref.refl _) (contour_error D h)) fun _ => Ref.refl _

theorem assertM_error (b : Bool) (e : Err) (h : assertM b = .error e) : Weak K e := by
  cases b
  · injection h with h; exact Or.inl h.symm
  · cases h

theorem component_error (D : Decomp σ T) (h : HalfEdge) : ∀ e, D.componentK .all h = .error e → Weak K e :=
  Weak.bind (Weak.bind (contour_error D h) fun _ => assertM_error _) fun _ => Weak.ok

theorem make_ref [Zero T] [DecidableEq T] (h : OpsRef K O O') (E : IET T) (s : σ) : Ref K (make O E s) (makeK K O' E s) := by
  rw [← makeK_all]
  unfold makeK
  rw [LWC.opsK_all]
  exact Ref.bind (IET.mk_ref (LWC.ops_ref h) _ _ _) fun _ => Ref.refl _

theorem after_ref (l : Label) (ls : List Label) : Ref K (afterK .all l ls) (afterK K l ls) := by
  induction ls with
  | nil => exact Ref.fail
  | cons c rest ih => exact Ref.ite (Ref.refl _) ih

theorem next_ref (D : Decomp σ T) (h : HalfEdge) : Ref K (D.nextK .all h) (D.nextK K h) :=
  Ref.bind (Ref.refl _) fun _ => Ref.bind (after_ref _ _) fun _ => Ref.refl _

theorem previous_ref (D : Decomp σ T) (h : HalfEdge) : Ref K (D.previousK .all h) (D.previousK K h) :=
  Ref.bind (Ref.refl _) fun _ => Ref.bind (after_ref _ _) fun _ => Ref.refl _

theorem chainTop_ref (cs : List Conn) : ∀ s, Ref K (chainTopK .all cs s) (chainTopK K cs s) := by
  induction cs with
  | nil => intro s; exact Ref.refl _
  | cons c cs ih => intro s; exact Ref.bind (Ref.assert_ok _ _) fun _ => ih _

theorem chainBottom_ref (cs : List Conn) : ∀ s, Ref K (chainBottomK .all cs s) (chainBottomK K cs s) := by
  induction cs with
  | nil => intro s; exact Ref.refl _
  | cons c cs ih => intro s; exact Ref.bind (Ref.assert_ok _ _) fun _ => ih _

theorem makeAtTop_ref (D : Decomp σ T) (l : Label) : Ref K (D.makeAtTopK .all l) (D.makeAtTopK K l) :=
  Ref.bind (Ref.refl _) fun _ => chainTop_ref _ _

theorem makeAtBottom_ref (D : Decomp σ T) (l : Label) : Ref K (D.makeAtBottomK .all l) (D.makeAtBottomK K l) :=
  Ref.bind (Ref.refl _) fun _ => chainBottom_ref _ _

theorem separatrix_ref (D : Decomp σ T) (h : HalfEdge) : Ref K (D.separatrixK .all h) (D.separatrixK K h) := by
  refine Ref.bind (next_ref D h) fun n => ?_
  cases n with
  | none => exact Ref.refl _
  | some _ => exact Ref.ite (Ref.bind (makeAtTop_ref D _) fun _ => Ref.refl _) (Ref.bind (makeAtBottom_ref D _) fun _ => Ref.refl _)

theorem perimeter_ref (D : Decomp σ T) (i : ℕ) : Ref K (D.perimeterK .all i) (D.perimeterK K i) :=
  Ref.bind (Ref.refl _) fun _ => Ref.bind (Ref.refl _) fun _ => Ref.bind (Ref.refl _) fun _ => Ref.bind (Ref.refl _) fun _ =>
    Ref.bind (Ref.assert_ok _ _) fun _ => Ref.refl _

theorem walkClockwise_ref (n : ℕ) : ∀ (D : Decomp σ T) (h dst : HalfEdge),
    Ref K (D.walkClockwiseK .all n h dst) (D.walkClockwiseK K n h dst) := by
  induction n with
  | zero => intro D h dst; exact Ref.refl _
  | succ n ih =>
    intro D h dst
    simp only [walkClockwiseK]
    refine Ref.bind (Ref.assert _ (Ref.bind (component_ref D h) fun _ => Ref.bind (component_ref D dst) fun _ => Ref.refl _)
      (Weak.bind (component_error D h) fun _ => Weak.bind (component_error D dst) fun _ => Weak.ok)) fun _ => ?_
    refine Ref.bind (component_ref D h) fun i => Ref.bind (Ref.refl _) fun c => ?_
    cases h.top <;> cases dst.top
    · refine Ref.bind (Ref.refl _) ?_
      rintro ⟨x, reached⟩
      exact Ref.ite (Ref.refl _) (Ref.bind (Ref.refl _) fun _ => Ref.bind (ih _ _ _) fun _ => Ref.refl _)
    · exact Ref.bind (Ref.refl _) fun _ => Ref.bind (ih _ _ _) fun _ => Ref.bind (Ref.refl _) fun _ => Ref.bind (ih _ _ _) fun _ => Ref.refl _
    · exact Ref.bind (Ref.refl _) fun _ => Ref.bind (ih _ _ _) fun _ => Ref.bind (Ref.refl _) fun _ => Ref.bind (ih _ _ _) fun _ => Ref.refl _
    · refine Ref.bind (Ref.refl _) ?_
      rintro ⟨x, reached⟩
      exact Ref.ite (Ref.refl _) (Ref.bind (Ref.refl _) fun _ => Ref.bind (ih _ _ _) fun _ => Ref.refl _)

theorem checkSeparatrices_ref (all : List Conn) : Ref K (checkSeparatricesK .all all) (checkSeparatricesK K all) := by
  refine Ref.forM (fun s => ?_) _
  generalize all.flatMap (fun c => (if c.source = s then [c] else []) ++ (if c.target = s then [c] else [])) = l
  match l with
  | [] => exact Ref.refl _
  | [_] => exact Ref.refl _
  | [a, b] => exact Ref.assert_ok _ _
  | _ :: _ :: _ :: _ => exact Ref.fail

theorem check_ref (D : Decomp σ T) : Ref K (D.checkK .all) (D.checkK K) :=
  Ref.bind (Ref.forM (fun _ => Ref.bind (Ref.assert_ok _ _) fun _ => Ref.assert_ok _ _) _) fun _ => checkSeparatrices_ref _

theorem boshernitzanCost_ref (h : OpsRef K O O') (E : IET T) (s : LWC σ) :
    Ref K (boshernitzanCostK .all O E s) (boshernitzanCostK K O' E s) := by
  unfold boshernitzanCostK
  rw [LWC.opsK_all]
  exact Ref.bind (IET.safInvariant_ref (LWC.ops_ref h) E s) fun _ => Ref.refl _

theorem registerSeparating_ref (D : Decomp σ T) (i : ℕ) (c : Conn) (j : ℕ) :
    Ref K (D.registerSeparatingK .all i c j) (D.registerSeparatingK K i c j) := by
  refine Ref.bind (Ref.assert_ok _ _) fun _ => Ref.bind (Ref.assert_ok _ _) fun _ => Ref.bind (Ref.refl _) fun _ => ?_
  refine Ref.bind (Ref.refl _) fun _ => Ref.bind (Ref.refl _) fun _ => Ref.bind (Ref.refl _) fun _ => ?_
  refine Ref.bind (Ref.refl _) fun _ => Ref.bind (Ref.refl _) fun D => ?_
  refine Ref.bind (Ref.assert _ (Ref.refl _) (Weak.bind (right_error _ _) fun _ => Weak.ok)) fun _ => ?_
  exact Ref.bind (Ref.assert _ (Ref.refl _) (Weak.bind (left_error _ _) fun _ => Weak.ok)) fun _ => Ref.refl _

theorem separating_ref (D : Decomp σ T) (i : ℕ) (b t : Label) (E : IET T) :
    Ref K (D.separatingK .all i b t E) (D.separatingK K i b t E) := by
  refine Ref.bind (Ref.refl _) fun c => Ref.bind (Ref.refl _) fun _ => Ref.bind (Ref.refl _) fun _ => ?_
  refine Ref.bind (walkClockwise_ref _ _ _ _) fun _ => Ref.bind (makeAtBottom_ref _ _) fun _ => Ref.bind (makeAtTop_ref _ _) fun _ => ?_
  exact Ref.bind (registerSeparating_ref _ _ _ _) fun _ => Ref.refl _

theorem nonSeparating_ref (D : Decomp σ T) (i : ℕ) (b t : Label) :
    Ref K (D.nonSeparatingK .all i b t) (D.nonSeparatingK K i b t) := by
  refine Ref.bind (Ref.assert_ok _ _) fun _ => Ref.bind (Ref.refl _) fun _ => Ref.bind (Ref.refl _) fun _ => ?_
  refine Ref.bind (makeAtBottom_ref _ _) fun _ => Ref.bind (makeAtTop_ref _ _) fun _ => ?_
  refine Ref.bind (Ref.refl _) fun _ => Ref.bind (Ref.refl _) fun _ => Ref.bind (Ref.assert_ok _ _) fun _ => ?_
  refine Ref.bind (Ref.refl _) fun _ => Ref.bind (Ref.refl _) fun _ => Ref.bind (Ref.refl _) fun _ => ?_
  refine Ref.bind (Ref.refl _) fun _ => Ref.bind (Ref.refl _) fun _ => ?_
  exact Ref.bind (Ref.assert _ (Ref.refl _) (Weak.bind (left_error _ _) fun _ => Weak.ok)) fun _ => Ref.refl _

theorem conclude_ref (D : Decomp σ T) (i : ℕ) (step : InductionStep T) : Ref K (D.concludeK .all i step) (D.concludeK K i step) := by
  refine Ref.bind (Ref.refl _) fun c => ?_
  obtain ⟨result, connection, additional⟩ := step
  cases result
  · exact Ref.refl _
  · exact Ref.refl _
  · cases connection with
    | none => exact Ref.refl _
    | some p =>
      cases additional with
      | none => exact Ref.refl _
      | some E => exact separating_ref _ _ _ _ _
  · cases connection with
    | none => exact Ref.refl _
    | some p => exact nonSeparating_ref _ _ _ _
  · exact Ref.refl _
  · exact Ref.refl _

variable [CommRing T] [LinearOrder T]

theorem chunks_ref (h : OpsRef K O O') (L : PPL) (cost : Option ℤ) (n : ℕ) :
    ∀ (limit : ℤ) (E : IET T) (s : LWC σ), Ref K (chunksK .all L O cost n limit E s) (chunksK K L O' cost n limit E s) := by
  induction n with
  | zero => intro limit E s; exact Ref.refl _
  | succ n ih =>
    intro limit E s
    unfold chunksK
    rw [LWC.opsK_all]
    refine Ref.bind (IET.induce_ref (LWC.ops_ref h) L _ _ E s) ?_
    rintro ⟨step, E, s⟩
    exact Ref.ite (ih _ _ _) (Ref.refl _)

theorem decompositionStepBounded_ref (h : OpsRef K O O') (L : PPL) (limit : ℤ) (i : ℕ) (D : Decomp σ T) :
    Ref K (D.decompositionStepBoundedK .all L O limit i) (D.decompositionStepBoundedK K L O' limit i) := by
  refine Ref.bind (Ref.refl _) fun c => Ref.bind (Ref.assert_ok _ _) fun _ => Ref.bind (boshernitzanCost_ref h _ _) ?_
  rintro ⟨cost, E⟩
  refine Ref.bind (chunks_ref h L _ _ _ _ _) ?_
  rintro ⟨step, E, s⟩
  exact conclude_ref _ _ _

theorem unlimited_ref (h : OpsRef K O O') (L : PPL) (cost : Option ℤ) (i : ℕ) (n : ℕ) :
    ∀ (limit : ℤ) (D : Decomp σ T), Ref K (unlimitedK .all L O cost i n limit D) (unlimitedK K L O' cost i n limit D) := by
  induction n with
  | zero => intro limit D; exact Ref.refl _
  | succ n ih =>
    intro limit D
    refine Ref.bind (decompositionStepBounded_ref h L limit i D) ?_
    rintro ⟨step, D⟩
    refine Ref.ite (Ref.refl _) ?_
    cases cost with
    | some c => exact ih _ _
    | none => exact Ref.ite (ih _ _) (Ref.refl _)

theorem decompositionStep_ref (h : OpsRef K O O') (L : PPL) (fuel : ℕ) (limit : ℤ) (i : ℕ) (D : Decomp σ T) :
    Ref K (D.decompositionStepK .all L O fuel limit i) (D.decompositionStepK K L O' fuel limit i) := by
  refine Ref.ite ?_ (decompositionStepBounded_ref h L limit i D)
  refine Ref.bind (Ref.refl _) fun c => Ref.bind (Ref.assert_ok _ _) fun _ => Ref.bind (boshernitzanCost_ref h _ _) ?_
  rintro ⟨cost, E⟩
  exact unlimited_ref h L _ _ _ _ _

theorem decomposeComponent_ref (h : OpsRef K O O') (L : PPL) (target : Comp T → Bool) (limit : ℤ) (n : ℕ) :
    ∀ (i : ℕ) (D : Decomp σ T),
      Ref K (D.decomposeComponentK .all L O target limit n i) (D.decomposeComponentK K L O' target limit n i) := by
  induction n with
  | zero => intro i D; exact Ref.refl _
  | succ n ih =>
    intro i D
    refine Ref.bind (Ref.refl _) fun c => Ref.ite (Ref.refl _) (Ref.bind (decompositionStep_ref h L _ _ _ _) ?_)
    rintro ⟨step, D⟩
    refine Ref.ite (Ref.refl _) ?_
    dsimp only
    cases step.additional with
    | none => exact ih _ _
    | some j =>
      refine Ref.bind (ih _ _) ?_
      rintro ⟨x, D⟩
      exact Ref.bind (ih _ _) fun _ => Ref.refl _

theorem decomposeAll_ref (h : OpsRef K O O') (L : PPL) (target : Comp T → Bool) (limit : ℤ) (fuel : ℕ) (is : List ℕ) :
    ∀ D : Decomp σ T, Ref K (decomposeAllK .all L O target limit fuel is D) (decomposeAllK K L O' target limit fuel is D) := by
  induction is with
  | nil => intro D; exact Ref.refl _
  | cons i is ih =>
    intro D
    refine Ref.bind (decomposeComponent_ref h L target limit fuel i D) ?_
    rintro ⟨x, D⟩
    exact Ref.ite (ih _) (Ref.refl _)

theorem decompose_ref (h : OpsRef K O O') (L : PPL) (target : Comp T → Bool) (limit : ℤ) (fuel : ℕ) (D : Decomp σ T) :
    Ref K (D.decomposeK .all L O target limit fuel) (D.decomposeK K L O' target limit fuel) :=
  decomposeAll_ref h L target limit fuel _ D

theorem inject_ref (D : Decomp σ T) (g : HalfEdge) (left right : List (Label × Label)) :
    Ref K (D.injectK .all g left right) (D.injectK K g left right) := by
  refine Ref.bind (check_ref D) fun _ => Ref.bind (Ref.refl _) fun _ => Ref.bind (Ref.assert_ok _ _) fun _ => ?_
  refine Ref.bind (Ref.refl _) fun D => Ref.bind (Ref.assert_ok _ _) fun _ => Ref.bind (Ref.refl _) fun D => ?_
  exact Ref.bind (check_ref D) fun _ => Ref.refl _

theorem iet_ref (h : OpsRef K O O') (A : Arith T) (i : ℕ) (D : Decomp σ T) : Ref K (ietK .all O A i D) (ietK K O' A i D) := by
  unfold ietK
  rw [h.forget, SLengths.opsK_all]
  exact Ref.bind (Ref.refl _) fun _ => Ref.bind (Ref.refl _) fun _ => Ref.bind (IET.mk_ref (SLengths.ops_ref K A) _ _ _) fun _ => Ref.refl _

end Decomp

end Verif
