import Verif.Model.World
import Verif.Model.Decomposition

/-!
# The model with checks that can be disabled

Checks are disabled at compile time when `NDEBUG` is defined and at runtime with the environment variables `LIBINTERVALXT_NOASSERT` and
`LIBINTERVALXT_NOCHECK` (libintervalxt/src/util/assert.ipp).  A check that is disabled is not evaluated at all.

This file repeats the functions that perform checks, or call such functions, with a parameter `K : Checks`.  They have the same names
followed by `K` and model the same lines.  (`Verif.Proofs.Checks` shows that they are the original functions when all checks are
enabled.)  What follows when a condition does not hold that has not been checked is modelled, in particular, if it is undefined.
-/

namespace Verif

/-- Which checks are performed. (src/util/assert.ipp:51-65 and 83-101) -/
structure Checks where
  /-- Whether LIBINTERVALXT_ASSERT checks, assert.ipp:89-103. -/
  asserts : Bool
  /-- Whether LIBINTERVALXT_CHECK_ARGUMENT checks, assert.ipp:83-87. -/
  arguments : Bool
  /-- Whether `assert` of the standard library checks. -/
  std : Bool
  deriving DecidableEq, Repr

namespace Checks

/-- All checks are performed. (src/util/assert.ipp:51-65) -/
def all : Checks := ⟨true, true, true⟩

/-- The characters removed by `boost::trim`. (src/util/assert.ipp:42) -/
def isSpace (c : Char) : Bool := c ∈ [' ', '\t', '\n', '\r', Char.ofNat 11, Char.ofNat 12]

/-- `boost::trim` (src/util/assert.ipp:42) -/
def trim (l : List Char) : List Char := ((l.dropWhile isSpace).reverse.dropWhile isSpace).reverse

/-- assert.ipp:36-48: whether an environment variable counts as set; `none` if it is not defined. -/
def isSet : Option (List Char) → Bool
  | none => false
  | some value =>
    let value := trim value
    if value = ['0'] then false
    else if value.map Char.toLower = ['n', 'o'] then false
    else if value.map Char.toLower = ['f', 'a', 'l', 's', 'e'] then false
    else true

/-- assert.ipp:50-103: the checks that are performed when the library has been compiled with NDEBUG or without, for the given values of
the environment variables LIBINTERVALXT_NOASSERT and LIBINTERVALXT_NOCHECK. -/
def of (ndebug : Bool) (noassert nocheck : Option (List Char)) : Checks where
  asserts := !(ndebug || isSet nocheck || isSet noassert)
  arguments := !isSet nocheck
  std := !ndebug

end Checks

/-- assert.ipp:68-80: if the check is enabled, the condition is evaluated and has to hold. -/
def assertK (enabled : Bool) (condition : M Bool) : M Unit :=
  if enabled then do assertM (← condition) else .ok ()

namespace SLengths

variable {T : Type} [CommRing T] [LinearOrder T]

/-- lengths.ipp:125-130 -/
def subtractK (K : Checks) (a : Label) (s : SLengths T) : M (SLengths T) := do
  let s ← s.set a ((← s.at' a) - (← s.value))
  assertK K.std (do return 0 < (← s.at' a))
  return s.clear

/-- lengths.ipp:146-159 -/
def subtractRepeatedLoopK (K : Checks) (a : Label) : List Label → Label → SLengths T → M (Label × SLengths T)
  | [], _, _ => .error .logicError
  | l :: ls, stop, s => do
    if (← s.at' a) ≤ (← s.at' l) then
      return (stop, s.clear)
    else
      let s ← s.set a ((← s.at' a) - (← s.at' l))
      assertK K.std (do return 0 < (← s.at' a))
      subtractRepeatedLoopK K a ls l s

/-- lengths.ipp:132-160 -/
def subtractRepeatedK (K : Checks) (A : Arith T) (a : Label) (s : SLengths T) : M (Label × SLengths T) :=
  match s.stack.getLast? with
  | none => .error .invalidArgument
  | some last => do
    let quo ← A.fdiv (← s.at' a) (← s.value)
    let s ← s.set a ((← s.at' a) - (quo : T) * (← s.value))
    assertK K.std (do return 0 ≤ (← s.at' a))
    let s ← if (← s.at' a) = 0 then s.set a ((← s.at' a) + (← s.value)) else .ok s
    subtractRepeatedLoopK K a s.stack last s

/-- `SLengths.ops` (sample/detail/lengths.ipp:74-183 and src/lengths_with_connections.cc:32-122) -/
def opsK (K : Checks) (A : Arith T) : LengthsOps (SLengths T) T where
  push l s := .ok (s.push l)
  pop := SLengths.pop
  subtract _ := SLengths.subtractK K
  subtractRepeated _ := SLengths.subtractRepeatedK K A
  coefficients := SLengths.coefficients A
  cmp := SLengths.cmp
  cmp2 := SLengths.cmp2
  get l s := s.at' l
  forget := SLengths.forget

end SLengths

namespace LWC

variable {σ T : Type}

/-- lengths_with_connections.cc:36-40 -/
def pushK (K : Checks) (O : LengthsOps σ T) (l : Label) (s : LWC σ) : M (LWC σ) := do
  assertK K.asserts (.ok (l ∉ s.stack))
  let inner ← O.push l s.inner
  return { s with stack := s.stack ++ [l], inner := inner }

/-- lengths_with_connections.cc:42-46; `pop_back` on an empty vector is undefined. -/
def popK (K : Checks) (O : LengthsOps σ T) (s : LWC σ) : M (LWC σ) := do
  assertK K.asserts (.ok (s.stack ≠ []))
  let inner ← O.pop s.inner
  if s.stack = [] then .error .ub else return { s with stack := s.stack.dropLast, inner := inner }

/-- lengths_with_connections.cc:81-90; dereferencing `begin` of an empty vector is undefined. -/
def subtractRepeatedK (K : Checks) (O : LengthsOps σ T) (ctx : Ctx) (minuend : Label) (s : LWC σ) : M (Label × LWC σ) := do
  assertK K.asserts (.ok (s.stack ≠ []))
  let (ret, inner) ← O.subtractRepeated ctx minuend s.inner
  match s.stack with
  | [] => .error .ub
  | b :: _ =>
    let conns ← subtractConns (ctx :: s.others) minuend b s.conns
    return (ret, { s with inner := inner, conns := conns, stack := [] })

/-- `LWC.ops` (sample/detail/lengths.ipp:74-183 and src/lengths_with_connections.cc:32-122) -/
def opsK (K : Checks) (O : LengthsOps σ T) : LengthsOps (LWC σ) T where
  push := pushK K O
  pop := popK K O
  subtract := subtract O
  subtractRepeated := subtractRepeatedK K O
  coefficients l s := O.coefficients l s.inner
  cmp l s := O.cmp l s.inner
  cmp2 l r s := O.cmp2 l r s.inner
  get l s := O.get l s.inner
  forget s := O.forget s.inner

end LWC

/-- rational_affine_subspace.cc:59-77: the numerators are used no matter what the denominators are. -/
def linearExpressionFromVectorK (K : Checks) (vec : List ℚ) (rhs : ℚ) : M (List ℤ × ℤ) := do
  let den := commonDen vec rhs
  let nums ← vec.mapM (fun c => do
    let num : ℚ := den * c
    assertK K.asserts (.ok (num.den = 1))
    return num.num)
  let r := rhs * den
  assertK K.asserts (.ok (r.den = 1))
  return (nums, r.num)

/-- rational_affine_subspace.cc:95-107; reading an entry of `y` that does not exist is undefined. -/
def Subspace.ofEquationsK (K : Checks) (equations : List (List ℚ)) (y : List ℚ) : M Subspace := do
  let homogeneous := y.all (fun v => v = 0)
  if K.arguments && equations.length ≠ y.length then .error .invalidArgument
  else if y.length < equations.length then .error .ub
  else do
    let cs ← (equations.zip y).mapM (fun p => do
      let (linear, rhs) ← linearExpressionFromVectorK K p.1 p.2
      return (⟨linear, .eq, rhs⟩ : Constr))
    return ⟨(equations.map List.length).foldl max 0, cs, homogeneous⟩

namespace IET

variable {σ T : Type}

/-- interval_exchange_transformation.cc:273-279 and 395-415 -/
def mkK [Zero T] [DecidableEq T] (K : Checks) (O : LengthsOps σ T) (top bottom : List Label) (s : σ) : M (IET T) := do
  assertK K.asserts (.ok (top.length = bottom.length))
  assertK K.asserts (.ok (top.dedup.length = bottom.dedup.length))
  assertK K.asserts (.ok (top.dedup.length = top.length))
  assertK K.asserts (do return (← top.mapM (fun l => O.get l s)).all (fun x => x ≠ 0))
  assertK K.asserts (.ok (top.length ≠ 0))
  return fresh top bottom

/-- interval_exchange_transformation.cc:46-61; reading entries of `w` that do not exist is undefined. -/
def wedgeK (K : Checks) (v w : List ℚ) : M (List ℚ) :=
  if K.arguments && v.length ≠ w.length then .error .invalidArgument
  else if w.length < v.length ∧ 2 ≤ v.length then .error .ub
  else .ok ((pairs v.length).map (fun p => v.getD p.1 0 * w.getD p.2 0 - v.getD p.2 0 * w.getD p.1 0))

/-- interval_exchange_transformation.cc:63-68; reading entries of `w` that do not exist is undefined. -/
def addVecK (K : Checks) (v w : List ℚ) : M (List ℚ) := do
  assertK K.asserts (.ok (v.length = w.length))
  if w.length < v.length then .error .ub else return List.zipWith (· + ·) v w

/-- interval_exchange_transformation.cc:70-75 -/
def subVecK (K : Checks) (v w : List ℚ) : M (List ℚ) := do
  assertK K.asserts (.ok (v.length = w.length))
  if w.length < v.length then .error .ub else return List.zipWith (· - ·) v w

/-- interval_exchange_transformation.cc:468-484 -/
def translationK (K : Checks) (E : IET T) (top bottom : Label) (m : CoeffMap) : M (List ℚ) :=
  match m with
  | [] => .error .ub
  | (_, c) :: _ => do
    let v ← translationLoop (subVecK K) m top E.top (List.replicate c.length 0)
    translationLoop (addVecK K) m bottom E.bottom v

/-- interval_exchange_transformation.cc:457-466 -/
def translationsK (K : Checks) (O : LengthsOps σ T) (E : IET T) (s : σ) : M (List (List ℚ)) := do
  let m ← E.labelToCoefficients O s
  E.top.mapM (fun l => E.translationK K l l m)

/-- interval_exchange_transformation.cc:419-431 -/
def rawSafK (K : Checks) (O : LengthsOps σ T) (E : IET T) (s : σ) : M (List ℚ) := do
  match ← E.coefficients O s with
  | [] => .error .ub
  | c :: cs =>
    if c.length ≤ 1 then return []
    else do
      let ts ← E.translationsK K O s
      ((c :: cs).zip ts).foldlM (fun acc p => do addVecK K acc (← wedgeK K p.1 p.2))
        (List.replicate (c.length * (c.length - 1) / 2) 0)

/-- interval_exchange_transformation.cc:417-438 -/
def safK (K : Checks) (O : LengthsOps σ T) (E : IET T) (s : σ) : M (List ℚ × IET T) :=
  match E.safCache with
  | some v => .ok (v, E)
  | none => do
    let v ← E.rawSafK K O s
    let v := if E.swapped then v.map (fun c => -c) else v
    return (v, { E with safCache := some v })

/-- interval_exchange_transformation.cc:440-443 -/
def saf0K (K : Checks) (O : LengthsOps σ T) (E : IET T) (s : σ) : M (Bool × IET T) := do
  let (v, E) ← E.safK K O s
  return (v.all (fun c => c = 0), E)

/-- interval_exchange_transformation.cc:117-123 -/
def safInvariantK (K : Checks) (O : LengthsOps σ T) (E : IET T) (s : σ) : M (List ℚ × IET T) := do
  let (v, E) ← E.safK K O s
  return (if E.swapped then v.map (fun c => -c) else v, E)

/-- interval_exchange_transformation.cc:170-181 -/
def boshernitzanEquationsK (K : Checks) (O : LengthsOps σ T) (E : IET T) (s : σ) : M (List (List ℚ)) := do
  match ← E.translationsK K O s with
  | [] => .error .ub
  | t :: ts => return (List.range t.length).map (fun d => (t :: ts).map (fun t => t.getD d 0))

/-- interval_exchange_transformation.cc:125-138 -/
def boshernitzanNoPeriodicTrajectoryK (K : Checks) (L : PPL) (O : LengthsOps σ T) (E : IET T) (s : σ) :
    M (Bool × IET T) := do
  let (zero, E) ← E.saf0K K O s
  if zero then return (false, E)
  else if E.size ≤ 1 then return (false, E)
  else do
    let relations ← E.boshernitzanEquationsK K O s
    let space ← Subspace.ofEquationsK K relations (List.replicate relations.length 0)
    return (!(← space.hasNonZeroNonNegativeVector L), E)

/-- interval_exchange_transformation.cc:184-188: `it = std::find(…); LIBINTERVALXT_CHECK_ARGUMENT(++it != end)` and the label at the iterator then.  The iterator is only
incremented when the check is performed.  Incrementing or dereferencing `end` is undefined. -/
def endPointK (K : Checks) (l : Label) (labels : List Label) : M Label := do
  if K.arguments then
    match ← nextLabel l labels with
    | none => .error .invalidArgument
    | some l => return l
  else if l ∈ labels then return l
  else .error .ub

/-- interval_exchange_transformation.cc:183-196 -/
def boshernitzanSaddleConnectionValuesK (K : Checks) (O : LengthsOps σ T) (E : IET T) (top bottom : Label) (s : σ) :
    M (List ℚ) := do
  let t ← endPointK K top E.top
  let b ← endPointK K bottom E.bottom
  let v ← E.translationK K t b (← E.labelToCoefficients O s)
  return v.map (fun c => -c)

/-- interval_exchange_transformation.cc:155-168 -/
def boshernitzanNoSaddleConnection₂K (K : Checks) (L : PPL) (O : LengthsOps σ T) (E : IET T) (top bottom : Label)
    (s : σ) : M Bool := do
  let values ← E.boshernitzanSaddleConnectionValuesK K O top bottom s
  if values.all (fun t => t = 0) then return false
  else do
    let space ← Subspace.ofEquationsK K (← E.boshernitzanEquationsK K O s) values
    return !(space.hasNonNegativeVector L)

/-- interval_exchange_transformation.cc:140-153 -/
def boshernitzanNoSaddleConnectionK (K : Checks) (L : PPL) (O : LengthsOps σ T) (E : IET T) (s : σ) : M Bool :=
  if E.size ≤ 1 then .ok false
  else allM (fun t => allM (fun b => E.boshernitzanNoSaddleConnection₂K K L O t b s)
    E.bottom.reverse.tail) E.top.reverse.tail

/-- interval_exchange_transformation.cc:312-341; dereferencing `end` is undefined. -/
def reduceLoopK (K : Checks) : List Label → List Label → List Label → Int → Int → ℕ → M ℕ
  | t :: ts, b :: bs, marked, topAhead, bottomAhead, n =>
    let (marked, topAhead, bottomAhead) :=
      if t ∈ marked then (marked.erase t, topAhead, bottomAhead - 1)
      else (t :: marked, topAhead + 1, bottomAhead)
    let (marked, topAhead, bottomAhead) :=
      if b ∈ marked then (marked.erase b, topAhead - 1, bottomAhead)
      else (b :: marked, topAhead, bottomAhead + 1)
    if topAhead = 0 ∧ bottomAhead = 0 then .ok (n + 1)
    else reduceLoopK K ts bs marked topAhead bottomAhead (n + 1)
  | _, _, _, _, _, _ => if K.asserts then .error .assertFailed else .error .ub

/-- interval_exchange_transformation.cc:306-360 -/
def reduceK [Zero T] [DecidableEq T] (K : Checks) (O : LengthsOps σ T) (E : IET T) (s : σ) : M (Option (IET T) × IET T) := do
  let k ← reduceLoopK K E.top E.bottom [] 0 0 0
  if k = E.top.length then do
    assertK K.asserts (.ok (k = E.bottom.length))
    return (none, E)
  else do
    let left := { E with top := E.top.take k, bottom := E.bottom.take k, safCache := none }
    assertK K.asserts (.ok (left.top.length = left.bottom.length))
    let right ← mkK K O (E.top.drop k) (E.bottom.drop k) s
    return (some right, left)

/-- interval_exchange_transformation.cc:211-220 -/
def trackStepK [CommRing T] [LinearOrder T] (K : Checks) (O : LengthsOps σ T) (saf0 : Bool) (E : IET T) (s : σ) : M (Bool × IET T) :=
  if saf0 then do
    let (v, E) ← E.safK K O s
    if v.length = 0 then return (false, E)
    else E.trackerLoop O s
  else .ok (false, E)

/-- interval_exchange_transformation.cc:210-229 -/
def induceLoopK [CommRing T] [LinearOrder T] (K : Checks) (O : LengthsOps σ T) (saf0 : Bool) : ℕ → IET T → σ → M (LoopEnd × IET T × σ)
  | 0, E, s => .ok (.exhausted, E, s)
  | n + 1, E, s => do
    let (loop, E) ← E.trackStepK K O saf0 s
    if loop then return (.autoSimilar, E, s)
    else
      let (found, E, s) ← E.zorichInduction O s
      if found then return (.found, E, s)
      else
        let (found, E, s) ← E.swap.zorichInduction O s
        if found then return (.found, E.swap, s)
        else induceLoopK K O saf0 n E.swap s

/-- interval_exchange_transformation.cc:207-230 -/
def inducePhaseK [CommRing T] [LinearOrder T] (K : Checks) (O : LengthsOps σ T) (fuel : ℕ) (limit : ℤ) (E : IET T) (s : σ) :
    M (LoopEnd × IET T × σ) :=
  if limit = 0 then .ok (.exhausted, E, s)
  else do
    let (zero, E) ← E.saf0K K O s
    if limit = -1 then
      let r ← induceLoopK K O zero fuel E s
      if r.1 = .exhausted then .error .fuel else return r
    else
      induceLoopK K O zero limit.toNat E s

/-- interval_exchange_transformation.cc:232-270 -/
def induceFinishK [CommRing T] [LinearOrder T] (K : Checks) (L : PPL) (O : LengthsOps σ T) (found : Bool) (E : IET T) (s : σ) :
    M (InductionStep T × IET T) := do
  let (right, E) ← E.reduceK K O s
  match right with
  | some right =>
    match E.bottom.getLast?, E.top.getLast? with
    | some b, some t => return ({ result := .separatingConnection, connection := some (b, t), additional := some right }, E)
    | _, _ => .error .ub
  | none =>
    match E.top, E.bottom with
    | t :: top, b :: bottom =>
      if (← O.cmp2 t b s) = 0 then
        return ({ result := .nonSeparatingConnection, connection := some (b, t) },
          { E with top := top, bottom := mergeBottom b t bottom })
      else do
        assertK K.asserts (.ok (!found))
        let (bosh, E) ← E.boshernitzanNoPeriodicTrajectoryK K L O s
        if bosh then return ({ result := .withoutPeriodicTrajectoryBoshernitzan }, E)
        else return ({ result := .limitReached }, E)
    | _, _ => .error .ub

/-- interval_exchange_transformation.cc:198-271 -/
def induceK [CommRing T] [LinearOrder T] (K : Checks) (L : PPL) (O : LengthsOps σ T) (fuel : ℕ) (limit : ℤ) (E : IET T) (s : σ) :
    M (InductionStep T × IET T × σ) := do
  if E.size = 1 then return ({ result := .cylinder }, E, s)
  else
    let (loopEnd, E, s) ← E.inducePhaseK K O fuel limit s
    if loopEnd = .autoSimilar then return ({ result := .withoutPeriodicTrajectoryAutoSimilar }, E, s)
    else
      let (step, E) ← E.induceFinishK K L O (loopEnd = .found) s
      return (step, E, s)

end IET

namespace Op

variable {σ T : Type} [CommRing T] [LinearOrder T]

/-- `Op.call` (interval_exchange_transformation.cc:79-360) -/
def callK (K : Checks) (L : PPL) (O : LengthsOps σ T) (fuel : ℕ) : Op → IET T → σ → M (List (IET T) × IET T × σ)
  | zorichInduction _, E, s => do
    let (_, E, s) ← E.zorichInduction O s
    return ([], E, s)
  | swap _, E, s => .ok ([], E.swap, s)
  | reduce _, E, s => do
    let (R, E) ← E.reduceK K O s
    return (R.toList, E, s)
  | induce _ limit, E, s => do
    let (step, E, s) ← E.induceK K L O fuel limit s
    return (step.additional.toList, E, s)
  | safInvariant _, E, s => do
    let (_, E) ← E.safInvariantK K O s
    return ([], E, s)
  | boshernitzanNoPeriodicTrajectory _, E, s => do
    let (_, E) ← E.boshernitzanNoPeriodicTrajectoryK K L O s
    return ([], E, s)

/-- `Op.exec` (interval_exchange_transformation.cc:79-360) -/
def execK (K : Checks) (L : PPL) (O : LengthsOps σ T) (fuel : ℕ) (op : Op) (w : World σ T) : M (World σ T) :=
  match w.pieces[op.index]? with
  | none => .ok w
  | some E => do
    let (new, E, s) ← op.callK K L O fuel E w.lengths
    return ⟨w.pieces.set op.index E ++ new, s⟩

end Op

/-- half_edge.cc:48-54 -/
def HalfEdge.eqK (K : Checks) (h g : HalfEdge) : M Bool :=
  if h.label = g.label then do
    assertK K.asserts (.ok (h.comp = g.comp))
    return h.comp = g.comp && h.top = g.top
  else .ok false

namespace Decomp

variable {σ T : Type}

/-- dynamical_decomposition.cc:45-56 -/
def makeK [Zero T] [DecidableEq T] (K : Checks) (O : LengthsOps σ T) (E : IET T) (s : σ) : M (Decomp σ T) := do
  let iet ← IET.mkK K (LWC.opsK K O) E.top E.bottom ⟨s, [], ⟨[], fun _ => {}⟩, []⟩
  return ⟨[{ iet := iet }], ⟨s, [], ⟨E.top, fun _ => {}⟩, []⟩⟩

/-- The lookup in component.cc:427-430 and 436-439; incrementing `end` is undefined. -/
def afterK (K : Checks) (l : Label) : List Label → M (Option Label)
  | [] => if K.asserts then .error .assertFailed else .error .ub
  | c :: rest => if c = l then .ok rest.head? else afterK K l rest

/-- component.cc:426-433 -/
def nextK (K : Checks) (D : Decomp σ T) (h : HalfEdge) : M (Option HalfEdge) := do
  let c ← D.comp h.comp
  let l ← afterK K h.label (if h.top then c.iet.top else c.iet.bottom)
  return l.map (fun l => ⟨h.comp, l, h.top⟩)

/-- component.cc:435-442 -/
def previousK (K : Checks) (D : Decomp σ T) (h : HalfEdge) : M (Option HalfEdge) := do
  let c ← D.comp h.comp
  let l ← afterK K h.label (if h.top then c.iet.top else c.iet.bottom).reverse
  return l.map (fun l => ⟨h.comp, l, h.top⟩)

/-- half_edge.cc:103-116 -/
def componentK (K : Checks) (D : Decomp σ T) (h : HalfEdge) : M ℕ := do
  assertK K.asserts (do
    let contour ← if h.top then D.topContour h.comp else D.bottomContour h.comp
    return h ∈ contour)
  return h.comp

/-- separatrix.cc:58-66 -/
def chainTopK (K : Checks) : List Conn → Sep → M Sep
  | [], s => .ok s
  | c :: cs, s => do
    assertK K.asserts (.ok (s = c.target))
    chainTopK K cs { s with label := c.source.label }

/-- separatrix.cc:68-76 -/
def chainBottomK (K : Checks) : List Conn → Sep → M Sep
  | [], s => .ok s
  | c :: cs, s => do
    assertK K.asserts (.ok (s = c.source))
    chainBottomK K cs { s with label := c.target.label }

/-- separatrix.cc:58-66 -/
def makeAtTopK (K : Checks) (D : Decomp σ T) (l : Label) : M Sep := do
  chainTopK K (← D.connections l).topRight.reverse ⟨l, false⟩

/-- separatrix.cc:68-76 -/
def makeAtBottomK (K : Checks) (D : Decomp σ T) (l : Label) : M Sep := do
  chainBottomK K (← D.connections l).bottomRight ⟨l, true⟩

/-- half_edge.cc:125-132 -/
def separatrixK (K : Checks) (D : Decomp σ T) (h : HalfEdge) : M (Option Sep) := do
  match ← D.nextK K h with
  | none => return none
  | some _ => return some (← if h.top then D.makeAtTopK K h.label else D.makeAtBottomK K h.label)

/-- component.cc:46-52 -/
def perimeterK (K : Checks) (D : Decomp σ T) (i : ℕ) : M (List Side) := do
  let p := (← D.bottom i) ++ (← D.right i) ++ (← D.top i) ++ (← D.left i)
  assertK K.asserts (.ok p.Nodup)
  return p

/-- component.cc:358-424 -/
def walkClockwiseK (K : Checks) (D : Decomp σ T) : ℕ → HalfEdge → HalfEdge → M (List Side)
  | 0, _, _ => .error .fuel
  | n + 1, h, dst => do
    assertK K.asserts (do return (← D.componentK K h) = (← D.componentK K dst))
    let i ← D.componentK K h
    let c ← D.comp i
    match h.top, dst.top with
    | false, true =>
      let x ← D.walkClockwiseK K n h ⟨i, ← headM c.bottomContour, false⟩
      let y ← D.walkClockwiseK K n ⟨i, ← headM c.topContour, true⟩ dst
      return x ++ y
    | true, false =>
      let x ← D.walkClockwiseK K n h ⟨i, ← lastM c.topContour, true⟩
      let y ← D.walkClockwiseK K n ⟨i, ← lastM c.bottomContour, false⟩ dst
      return x ++ y
    | true, true =>
      let (x, reached) ← D.walkAlong i true dst.label (c.iet.top.dropWhile (fun l => l ≠ h.label))
      if reached then return x
      else return x ++ (← D.walkClockwiseK K n ⟨i, ← lastM c.bottomContour, false⟩ dst)
    | false, false =>
      let (x, reached) ← D.walkAlong i false dst.label (c.iet.bottom.reverse.dropWhile (fun l => l ≠ h.label))
      if reached then return x
      else return x ++ (← D.walkClockwiseK K n ⟨i, ← headM c.topContour, true⟩ dst)

/-- dynamical_decomposition.cc:106-114 -/
def checkSeparatricesK (K : Checks) (all : List Conn) : M Unit :=
  (all.flatMap (fun c => [c.source, c.target])).forM (fun s =>
    let at' := all.flatMap (fun c => (if c.source = s then [c] else []) ++ (if c.target = s then [c] else []))
    match at' with
    | [a, b] => assertK K.asserts (.ok (a = b.neg))
    | [_] => .ok ()
    | [] => .ok ()
    | _ => if K.asserts then .error .assertFailed else .ok ())

/-- dynamical_decomposition.cc:87-115 -/
def checkK (K : Checks) (D : Decomp σ T) : M Unit := do
  D.lengths.conns.keys.forM (fun l => do
    assertK K.asserts (.ok ((leftConns (D.lengths.conns.val l)).all Conn.antiparallel))
    assertK K.asserts (.ok ((rightConns (D.lengths.conns.val l)).all Conn.parallel)))
  checkSeparatricesK K
    (D.lengths.conns.keys.flatMap (fun l => leftConns (D.lengths.conns.val l) ++ rightConns (D.lengths.conns.val l)))

/-- component.cc:344-356 -/
def boshernitzanCostK (K : Checks) (O : LengthsOps σ T) (E : IET T) (s : LWC σ) : M (Option ℤ × IET T) := do
  let (saf, E) ← E.safInvariantK K (LWC.opsK K O) s
  return (if saf.all (fun v => v = 0) then none else some 64, E)

/-- component.cc:186-203 -/
def chunksK [CommRing T] [LinearOrder T] (K : Checks) (L : PPL) (O : LengthsOps σ T) (cost : Option ℤ) :
    ℕ → ℤ → IET T → LWC σ → M (InductionStep T × IET T × LWC σ)
  | 0, _, _, _ => .error .fuel
  | n + 1, limit, E, s => do
    let steps := chunkSize cost limit
    let (step, E, s) ← E.induceK K L (LWC.opsK K O) 0 steps s
    if step.result = .limitReached ∧ limit - steps ≠ 0 then chunksK K L O cost n (limit - steps) E s
    else return (step, E, s)

/-- component.cc:330-342 -/
def registerSeparatingK (K : Checks) (D : Decomp σ T) (i : ℕ) (separating : Conn) (j : ℕ) : M (Decomp σ T) := do
  assertK K.asserts (.ok separating.parallel)
  assertK K.asserts (.ok (i ≠ j))
  let l ← lastM (← D.comp i).iet.bottom
  let D ← D.modify l (fun c => { c with bottomRight := c.bottomRight ++ [separating] })
  let r ← headM (← D.comp j).iet.bottom
  let D ← D.modify r (fun c => { c with bottomLeft := c.bottomLeft ++ [separating.neg] })
  assertK K.asserts (do return (← D.right i) ≠ [])
  assertK K.asserts (do return (← D.left j) ≠ [])
  return D

/-- component.cc:214-232 and dynamical_decomposition.cc:76-85 -/
def separatingK (K : Checks) (D : Decomp σ T) (i : ℕ) (b t : Label) (additional : IET T) : M (DStep × Decomp σ T) := do
  let c ← D.comp i
  let equivalent ← D.walkClockwiseK K 4 ⟨i, ← lastM c.bottomContour, false⟩ ⟨i, ← lastM c.topContour, true⟩
  let connection : Conn := ⟨← D.makeAtBottomK K b, ← D.makeAtTopK K t⟩
  let j := D.comps.length
  let D : Decomp σ T := { D with comps := D.comps ++ [{ iet := additional }] }
  let D ← D.registerSeparatingK K i connection j
  return ({ result := .separatingConnection, connection := some connection, equivalent := some equivalent, additional := some j }, D)

/-- component.cc:233-275 -/
def nonSeparatingK (K : Checks) (D : Decomp σ T) (i : ℕ) (b t : Label) : M (DStep × Decomp σ T) := do
  assertK K.asserts (.ok (b ≠ t))
  let x ← D.cross ⟨i, t, true⟩
  let y ← D.cross ⟨i, b, false⟩
  let equivalent := (x ++ y).reverse.map Side.flip
  let connection : Conn := ⟨← D.makeAtBottomK K b, ← D.makeAtTopK K t⟩
  let first ← headM (← D.comp i).iet.top
  assertK K.asserts (.ok (first ≠ t))
  let D ← D.modify b (fun c => { c with bottomRight := c.bottomRight ++ [connection] })
  let D ← D.modify first (fun c => { c with topLeft := connection.neg :: c.topLeft })
  let ct ← D.connections t
  let D ← D.modify b (fun c => { c with
    bottomLeft := c.bottomLeft ++ ct.topLeft ++ ct.bottomLeft
    bottomRight := c.bottomRight ++ ct.topRight ++ ct.bottomRight })
  let D ← D.modify t (fun _ => {})
  assertK K.asserts (do return (← D.left i) ≠ [])
  return ({ result := .nonSeparatingConnection, connection := some connection, equivalent := some equivalent }, D)

/-- component.cc:205-286 -/
def concludeK (K : Checks) (D : Decomp σ T) (i : ℕ) (step : InductionStep T) : M (DStep × Decomp σ T) := do
  let c ← D.comp i
  match step.result, step.connection, step.additional with
  | .limitReached, _, _ => return ({ result := .limitReached }, D)
  | .cylinder, _, _ =>
    return ({ result := .cylinder }, D.setComp i { c with cylinder := some true, withoutPeriodicTrajectory := some false, keane := some false })
  | .separatingConnection, some (b, t), some additional => D.separatingK K i b t additional
  | .nonSeparatingConnection, some (b, t), _ => D.nonSeparatingK K i b t
  | .withoutPeriodicTrajectoryBoshernitzan, _, _ =>
    return ({ result := .withoutPeriodicTrajectoryBoshernitzan },
      D.setComp i { c with withoutPeriodicTrajectory := some true, cylinder := some false })
  | .withoutPeriodicTrajectoryAutoSimilar, _, _ =>
    return ({ result := .withoutPeriodicTrajectoryAutoSimilar },
      D.setComp i { c with withoutPeriodicTrajectory := some true, cylinder := some false })
  | _, _, _ => .error .ub

/-- component.cc:165-287 -/
def decompositionStepBoundedK [CommRing T] [LinearOrder T] (K : Checks) (L : PPL) (O : LengthsOps σ T) (limit : ℤ) (i : ℕ)
    (D : Decomp σ T) : M (DStep × Decomp σ T) := do
  let c ← D.comp i
  assertK K.asserts (.ok (¬ (c.cylinder = some true ∧ c.keane = some true)))
  let s := { D.lengths with others := D.others i }
  let (cost, E) ← boshernitzanCostK K O c.iet s
  let (step, E, s) ← chunksK K L O cost (limit.toNat + 1) limit E s
  concludeK K { D.setComp i { c with iet := E } with lengths := s } i step

/-- component.cc:172-182 -/
def unlimitedK [CommRing T] [LinearOrder T] (K : Checks) (L : PPL) (O : LengthsOps σ T) (cost : Option ℤ) (i : ℕ) :
    ℕ → ℤ → Decomp σ T → M (DStep × Decomp σ T)
  | 0, _, _ => .error .fuel
  | n + 1, limit, D => do
    let (step, D) ← D.decompositionStepBoundedK K L O limit i
    if step.result ≠ .limitReached then return (step, D)
    else match cost with
      | some c => unlimitedK K L O cost i n c D
      | none => if 2 * (limit + 1) ≤ intMax then unlimitedK K L O cost i n (2 * (limit + 1)) D else .error .ub

/-- component.cc:165-287 -/
def decompositionStepK [CommRing T] [LinearOrder T] (K : Checks) (L : PPL) (O : LengthsOps σ T) (fuel : ℕ) (limit : ℤ) (i : ℕ)
    (D : Decomp σ T) : M (DStep × Decomp σ T) := do
  if limit = -1 then
    let c ← D.comp i
    assertK K.asserts (.ok (¬ (c.cylinder = some true ∧ c.keane = some true)))
    let (cost, E) ← boshernitzanCostK K O c.iet D.lengths
    unlimitedK K L O cost i fuel 0 (D.setComp i { c with iet := E })
  else D.decompositionStepBoundedK K L O limit i

/-- component.cc:444-464 -/
def decomposeComponentK [CommRing T] [LinearOrder T] (K : Checks) (L : PPL) (O : LengthsOps σ T) (target : Comp T → Bool)
    (limit : ℤ) : ℕ → ℕ → Decomp σ T → M (Bool × Decomp σ T)
  | 0, _, _ => .error .fuel
  | n + 1, i, D => do
    let c ← D.comp i
    if target c then return (true, D)
    else
      let (step, D) ← D.decompositionStepK K L O n limit i
      if step.result = .limitReached then return (false, D)
      else match step.additional with
        | some j =>
          let (x, D) ← D.decomposeComponentK K L O target limit n j
          let (y, D) ← D.decomposeComponentK K L O target limit n i
          return (x && y, D)
        | none => D.decomposeComponentK K L O target limit n i

/-- dynamical_decomposition.cc:67 -/
def decomposeAllK [CommRing T] [LinearOrder T] (K : Checks) (L : PPL) (O : LengthsOps σ T) (target : Comp T → Bool) (limit : ℤ)
    (fuel : ℕ) : List ℕ → Decomp σ T → M (Bool × Decomp σ T)
  | [], D => .ok (true, D)
  | i :: is, D => do
    let (x, D) ← D.decomposeComponentK K L O target limit fuel i
    if x then decomposeAllK K L O target limit fuel is D else return (false, D)

/-- dynamical_decomposition.cc:65-68 -/
def decomposeK [CommRing T] [LinearOrder T] (K : Checks) (L : PPL) (O : LengthsOps σ T) (target : Comp T → Bool) (limit : ℤ)
    (fuel : ℕ) (D : Decomp σ T) : M (Bool × Decomp σ T) :=
  D.decomposeAllK K L O target limit fuel (List.range D.comps.length)

/-- component.cc:112-163 -/
def injectK (K : Checks) (D : Decomp σ T) (h : HalfEdge) (left right : List (Label × Label)) :
    M ((List Conn × List Conn) × Decomp σ T) := do
  D.checkK K
  let c ← D.connections h.label
  assertK K.asserts (.ok (left = [] ∨ (if h.top then c.topLeft else c.bottomLeft) = []))
  let D ← D.modify h.label (fun c => if h.top then { c with topLeft := c.topLeft ++ (injectLeft true left).1 }
    else { c with bottomLeft := c.bottomLeft ++ (injectLeft false left).1 })
  assertK K.asserts (.ok (right = [] ∨ (if h.top then c.topRight else c.bottomRight) = []))
  let D ← D.modify h.label (fun c => if h.top then { c with topRight := c.topRight ++ (injectRight true right).1 }
    else { c with bottomRight := c.bottomRight ++ (injectRight false right).1 })
  D.checkK K
  return (((injectLeft h.top left).2, (injectRight h.top right).2), D)

/-- component.cc:466-469 -/
def ietK [CommRing T] [LinearOrder T] (K : Checks) (O : LengthsOps σ T) (A : Arith T) (i : ℕ) (D : Decomp σ T) :
    M (IET T × SLengths T) := do
  let c ← D.comp i
  let f ← O.forget D.lengths.inner
  let E ← IET.mkK K (SLengths.opsK K A) c.iet.top c.iet.bottom f
  return (E, f)

end Decomp

end Verif
