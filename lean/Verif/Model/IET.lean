import Verif.Model.Lengths
import Verif.Model.Subspace

/-!
# Model of `IntervalExchangeTransformation` on the level of labels

`top`/`bottom` are lists of labels; an interval is identified with its label.  (The lists of nodes
with twin pointers are modelled in `Verif.Model.Pointer`.)

The lengths behind the shared pointer are not part of an `IET`, they are threaded through all
operations as a state `σ`.

Line numbers refer to libintervalxt/src/interval_exchange_transformation.cc.
-/

namespace Verif

/-- Model of `SimilarityTracker` (libintervalxt/src/impl/similarity_tracker.hpp:28-42). -/
structure Tracker (T : Type) where
  periodBound : ℕ
  ttl : ℕ
  top : List Label
  bottom : List ℕ
  lengths : SLengths T
  deriving DecidableEq, Repr

/-- The initial values, similarity_tracker.hpp:35-41. -/
def Tracker.init {T : Type} : Tracker T := ⟨1, 0, [], [], ⟨[], []⟩⟩

/-- Model of the data of `ImplementationOf<IntervalExchangeTransformation>` except for the shared
lengths (impl/interval_exchange_transformation.impl.hpp:68-73). -/
structure IET (T : Type) where
  top : List Label
  bottom : List Label
  safCache : Option (List ℚ)
  tracker : Tracker T
  swapped : Bool
  deriving DecidableEq, Repr

/-- `InductionStep::Result` (libintervalxt/intervalxt/induction_step.hpp:33-41). -/
inductive Result
  | limitReached
  | cylinder
  | separatingConnection
  | nonSeparatingConnection
  | withoutPeriodicTrajectoryBoshernitzan
  | withoutPeriodicTrajectoryAutoSimilar
  deriving DecidableEq, Repr

/-- `InductionStep` (libintervalxt/intervalxt/induction_step.hpp:43-46). -/
structure InductionStep (T : Type) where
  result : Result
  connection : Option (Label × Label) := none
  additional : Option (IET T) := none
  deriving DecidableEq, Repr

namespace IET

variable {σ T : Type}

/-- interval_exchange_transformation.cc:395-415 without the assertions (see `mk?`): a new IET with empty cache, fresh tracker, not swapped. -/
def fresh (top bottom : List Label) : IET T := ⟨top, bottom, none, Tracker.init, false⟩

/-- interval_exchange_transformation.cc:273-279 and 395-415: the constructor with its assertions. -/
def mk? [Zero T] [DecidableEq T] (O : LengthsOps σ T) (top bottom : List Label) (s : σ) : M (IET T) := do
  assertM (top.length = bottom.length)
  assertM (top.dedup.length = bottom.dedup.length)
  assertM (top.dedup.length = top.length)
  let lens ← top.mapM (fun l => O.get l s)
  assertM (lens.all (fun x => x ≠ 0))
  assertM (top.length ≠ 0)
  return fresh top bottom

/-- interval_exchange_transformation.cc:289-292 -/
def swap (E : IET T) : IET T := { E with top := E.bottom, bottom := E.top, swapped := !E.swapped }

/-- interval_exchange_transformation.cc:302-304 -/
def size (E : IET T) : ℕ := E.top.length

/-- What the lengths can see of the calling IET. (lengths_with_connections.cc:58-79) -/
def ctx (E : IET T) : Ctx := ⟨E.top, E.swapped⟩

/-! ### Zorich induction -/

/-- interval_exchange_transformation.cc:92-94: `while (*bottom != stop) bottom--; bottom++;`. The list `bottom` is given as a zipper: the part
before the iterator (reversed) and the part from the iterator on.  Returns `[begin, bottom)` and
`[bottom, end)` for the final iterator.  Decrementing `begin()` and dereferencing `end()` are undefined. -/
def walkBack (stop : Label) : List Label → List Label → M (List Label × List Label)
  | _, [] => .error .ub
  | [], c :: suf => if c = stop then .ok ([c], suf) else .error .ub
  | p :: rev, c :: suf =>
    if c = stop then .ok ((c :: p :: rev).reverse, suf) else walkBack stop rev (p :: c :: suf)

/-- interval_exchange_transformation.cc:88-110: the loop. `rev` is the part of the bottom already passed by the iterator (reversed), the last
list is the part from the iterator on.  Returns `[begin, bottom)`, `[bottom, end)` for the final iterator
and the new lengths. -/
def zorichLoop (O : LengthsOps σ T) (ctx : Ctx) (a : Label) :
    List Label → List Label → σ → M ((List Label × List Label) × σ)
  | _, [], _ => .error .ub
  | rev, b :: rest, s =>
    if b = a then do
      let (stop, s) ← O.subtractRepeated ctx a s
      let cut ← walkBack stop rev (b :: rest)
      return (cut, s)
    else do
      let s ← O.push b s
      if 0 ≤ (← O.cmp a s) then
        let s ← O.pop s
        let s ← O.subtract ctx a s
        return ((rev.reverse, b :: rest), s)
      else
        zorichLoop O ctx a (b :: rev) rest s

/-- interval_exchange_transformation.cc:112: `splice(top->twin, bottom, begin(bottom), bottom)`: move `moved` directly before `a`.  It is undefined
when the target position is not in the remaining list. -/
def spliceBefore (a : Label) (moved : List Label) : List Label → M (List Label)
  | [] => .error .ub
  | c :: rest => if c = a then .ok (moved ++ c :: rest) else do
    return c :: (← spliceBefore a moved rest)

/-- interval_exchange_transformation.cc:79-115 -/
def zorichInduction (O : LengthsOps σ T) (E : IET T) (s : σ) : M (Bool × IET T × σ) :=
  match E.top, E.bottom with
  | a :: _, b :: _ =>
    if a = b then .ok (true, E, s)
    else do
      let ((moved, rest), s) ← zorichLoop O E.ctx a [] E.bottom s
      let bottom ← spliceBefore a moved rest
      match bottom with
      | [] => .error .ub
      | b' :: _ =>
        let c ← O.cmp2 a b' s
        return (c = 0, { E with bottom := bottom }, s)
  | _, _ => .error .ub

/-! ### The SAF invariant -/

/-- The pairs `(i, j)` with `i < j < d` in the order of the nested loop. (interval_exchange_transformation.cc:53-58) -/
def pairs (d : ℕ) : List (ℕ × ℕ) :=
  (List.range (d - 1)).flatMap (fun i => (List.range' (i + 1) (d - (i + 1))).map (fun j => (i, j)))

/-- interval_exchange_transformation.cc:46-61 -/
def wedge (v w : List ℚ) : M (List ℚ) :=
  if v.length = w.length then
    .ok ((pairs v.length).map (fun p => v.getD p.1 0 * w.getD p.2 0 - v.getD p.2 0 * w.getD p.1 0))
  else .error .invalidArgument

/-- interval_exchange_transformation.cc:63-68 -/
def addVec (v w : List ℚ) : M (List ℚ) :=
  if v.length = w.length then .ok (List.zipWith (· + ·) v w) else .error .assertFailed

/-- interval_exchange_transformation.cc:70-75 -/
def subVec (v w : List ℚ) : M (List ℚ) :=
  if v.length = w.length then .ok (List.zipWith (· - ·) v w) else .error .assertFailed

/-- interval_exchange_transformation.cc:445-447 -/
def coefficients (O : LengthsOps σ T) (E : IET T) (s : σ) : M (List (List ℚ)) :=
  O.coefficients E.top s

/-- `std::unordered_map<Label, std::vector<mpq_class>>`: the list of assignments in the order they are made. (interval_exchange_transformation.cc:449-455) -/
abbrev CoeffMap := List (Label × List ℚ)

/-- `unordered_map::at`, the last assignment counts. (interval_exchange_transformation.cc:468-484) -/
def CoeffMap.at' (m : CoeffMap) (l : Label) : M (List ℚ) :=
  match m.reverse.lookup l with
  | some c => .ok c
  | none => .error .outOfRange

/-- interval_exchange_transformation.cc:449-455 -/
def labelToCoefficients (O : LengthsOps σ T) (E : IET T) (s : σ) : M CoeffMap := do
  return E.top.zip (← E.coefficients O s)

/-- The loops 471-475 and 477-481: add/subtract the coefficients of all labels before `stop`. (interval_exchange_transformation.cc:471-481) -/
def translationLoop (op : List ℚ → List ℚ → M (List ℚ)) (m : CoeffMap) (stop : Label) :
    List Label → List ℚ → M (List ℚ)
  | [], v => .ok v
  | t :: ts, v =>
    if t = stop then .ok v
    else do
      let v ← op v (← m.at' t)
      translationLoop op m stop ts v

/-- interval_exchange_transformation.cc:468-484.  `begin()` of an empty map is undefined; all entries have the same size, so it does not matter
which entry the unordered map has first. -/
def translation (E : IET T) (top bottom : Label) (m : CoeffMap) : M (List ℚ) :=
  match m with
  | [] => .error .ub
  | (_, c) :: _ => do
    let v ← translationLoop subVec m top E.top (List.replicate c.length 0)
    translationLoop addVec m bottom E.bottom v

/-- interval_exchange_transformation.cc:457-466 -/
def translations (O : LengthsOps σ T) (E : IET T) (s : σ) : M (List (List ℚ)) := do
  let m ← E.labelToCoefficients O s
  E.top.mapM (fun l => E.translation l l m)

/-- The computation in 419-431: the SAF invariant of the current IET from scratch. (interval_exchange_transformation.cc:419-431) -/
def rawSaf (O : LengthsOps σ T) (E : IET T) (s : σ) : M (List ℚ) := do
  match ← E.coefficients O s with
  | [] => .error .ub
  | c :: cs =>
    if c.length ≤ 1 then return []
    else do
      let ts ← E.translations O s
      ((c :: cs).zip ts).foldlM (fun acc p => do addVec acc (← wedge p.1 p.2))
        (List.replicate (c.length * (c.length - 1) / 2) 0)

/-- interval_exchange_transformation.cc:417-438: returns the cached value; it refers to the orientation before any swap. -/
def saf (O : LengthsOps σ T) (E : IET T) (s : σ) : M (List ℚ × IET T) :=
  match E.safCache with
  | some v => .ok (v, E)
  | none => do
    let v ← E.rawSaf O s
    let v := if E.swapped then v.map (fun c => -c) else v
    return (v, { E with safCache := some v })

/-- interval_exchange_transformation.cc:440-443 -/
def saf0 (O : LengthsOps σ T) (E : IET T) (s : σ) : M (Bool × IET T) := do
  let (v, E) ← E.saf O s
  return (v.all (fun c => c = 0), E)

/-- interval_exchange_transformation.cc:117-123 -/
def safInvariant (O : LengthsOps σ T) (E : IET T) (s : σ) : M (List ℚ × IET T) := do
  let (v, E) ← E.saf O s
  return (if E.swapped then v.map (fun c => -c) else v, E)

/-! ### Boshernitzan's criterion -/

/-- interval_exchange_transformation.cc:170-181: the transposed matrix of translations.  `translations[0]` of an empty list is undefined. -/
def boshernitzanEquations (O : LengthsOps σ T) (E : IET T) (s : σ) : M (List (List ℚ)) := do
  match ← E.translations O s with
  | [] => .error .ub
  | t :: ts => return (List.range t.length).map (fun d => (t :: ts).map (fun t => t.getD d 0))

/-- interval_exchange_transformation.cc:125-138 -/
def boshernitzanNoPeriodicTrajectory (L : PPL) (O : LengthsOps σ T) (E : IET T) (s : σ) :
    M (Bool × IET T) := do
  let (zero, E) ← E.saf0 O s
  if zero then return (false, E)
  else if E.size ≤ 1 then return (false, E)
  else do
    let relations ← E.boshernitzanEquations O s
    let space ← Subspace.ofEquations relations (List.replicate relations.length 0)
    return (!(← space.hasNonZeroNonNegativeVector L), E)

/-- `std::find` followed by `++`: the label after `l`; `none` when `l` is last.  It is undefined to increment
the result when `l` does not occur. (interval_exchange_transformation.cc:184-188) -/
def nextLabel (l : Label) : List Label → M (Option Label)
  | [] => .error .ub
  | c :: rest => if c = l then .ok rest.head? else nextLabel l rest

/-- interval_exchange_transformation.cc:183-196 -/
def boshernitzanSaddleConnectionValues (O : LengthsOps σ T) (E : IET T) (top bottom : Label) (s : σ) :
    M (List ℚ) := do
  match ← nextLabel top E.top with
  | none => .error .invalidArgument
  | some t =>
    match ← nextLabel bottom E.bottom with
    | none => .error .invalidArgument
    | some b =>
      let v ← E.translation t b (← E.labelToCoefficients O s)
      return v.map (fun c => -c)

/-- interval_exchange_transformation.cc:155-168 -/
def boshernitzanNoSaddleConnection₂ (L : PPL) (O : LengthsOps σ T) (E : IET T) (top bottom : Label)
    (s : σ) : M Bool := do
  let values ← E.boshernitzanSaddleConnectionValues O top bottom s
  if values.all (fun t => t = 0) then return false
  else do
    let space ← Subspace.ofEquations (← E.boshernitzanEquations O s) values
    return !(space.hasNonNegativeVector L)

/-- A loop over a list which returns `false` as soon as a body returns `false`. (interval_exchange_transformation.cc:140-153) -/
def allM {α : Type} (f : α → M Bool) : List α → M Bool
  | [] => .ok true
  | x :: xs => do if ← f x then allM f xs else return false

/-- interval_exchange_transformation.cc:140-153: the loops go over all labels but the last of top and bottom, from right to left. -/
def boshernitzanNoSaddleConnection (L : PPL) (O : LengthsOps σ T) (E : IET T) (s : σ) : M Bool :=
  if E.size ≤ 1 then .ok false
  else allM (fun t => allM (fun b => E.boshernitzanNoSaddleConnection₂ L O t b s)
    E.bottom.reverse.tail) E.top.reverse.tail

/-! ### Reduction -/

/-- interval_exchange_transformation.cc:312-341: the loop, given the intervals not seen yet.  The bit flips `label.id ^= 1` are represented by the
list `marked` of labels whose interval has been seen on exactly one side so far (see `Verif.Model.Pointer` for
the actual bit flips).  Returns the number of intervals in the prefix found. -/
def reduceLoop : List Label → List Label → List Label → Int → Int → ℕ → M ℕ
  | t :: ts, b :: bs, marked, topAhead, bottomAhead, n =>
    let (marked, topAhead, bottomAhead) :=
      if t ∈ marked then (marked.erase t, topAhead, bottomAhead - 1)
      else (t :: marked, topAhead + 1, bottomAhead)
    let (marked, topAhead, bottomAhead) :=
      if b ∈ marked then (marked.erase b, topAhead - 1, bottomAhead)
      else (b :: marked, topAhead, bottomAhead + 1)
    if topAhead = 0 ∧ bottomAhead = 0 then .ok (n + 1)
    else reduceLoop ts bs marked topAhead bottomAhead (n + 1)
  | _, _, _, _, _, _ => .error .assertFailed

/-- interval_exchange_transformation.cc:306-360 -/
def reduce [Zero T] [DecidableEq T] (O : LengthsOps σ T) (E : IET T) (s : σ) : M (Option (IET T) × IET T) := do
  let k ← reduceLoop E.top E.bottom [] 0 0 0
  if k = E.top.length then do
    assertM (k = E.bottom.length)
    return (none, E)
  else do
    let left := { E with top := E.top.take k, bottom := E.bottom.take k, safCache := none }
    assertM (left.top.length = left.bottom.length)
    let right ← mk? O (E.top.drop k) (E.bottom.drop k) s
    return (some right, left)

/-! ### Similarity tracking, libintervalxt/src/similarity_tracker.cc -/

/-- similarity_tracker.cc:55-70 `reset`.  `periodBound` and `ttl` are of type `size_t`. -/
def trackerReset [CommRing T] [LinearOrder T] (O : LengthsOps σ T) (E : IET T) (s : σ) : M (Tracker T) := do
  let f ← O.forget s
  let lengths ← f.only E.top
  return {
    periodBound := E.tracker.periodBound * 2 % 2 ^ 64
    ttl := E.tracker.periodBound
    top := E.top
    bottom := E.bottom.flatMap (fun b => (List.range E.top.length).filter (fun pos => E.top[pos]? = some b))
    lengths := lengths }

/-- similarity_tracker.cc:37-39: `bottom[i] != top[this->bottom[i]]` for some `i`, with undefined accesses out of
range. -/
def samePermutation (top : List Label) : List Label → List ℕ → M Bool
  | [], _ => .ok true
  | _ :: _, [] => .error .ub
  | b :: bs, pos :: ps =>
    match top[pos]? with
    | none => .error .ub
    | some t => if b ≠ t then .ok false else samePermutation top bs ps

/-- similarity_tracker.cc:41-50.  Note that the labels used for the current lengths are those of the
*remembered* top (`this->top`) and not of the current one. -/
def allSimilar [CommRing T] [LinearOrder T] (O : LengthsOps σ T) (lengths : SLengths T) (s : σ) :
    List Label → M Bool
  | a :: b :: rest => do
    if ← lengths.similar a b (fun l => O.get l s) a b then allSimilar O lengths s (b :: rest)
    else return false
  | _ => .ok true

/-- similarity_tracker.cc:25-53 `loop`.  The loop in line 41 runs up to `iet.size()` which is the size of the
remembered top. -/
def trackerLoop [CommRing T] [LinearOrder T] (O : LengthsOps σ T) (E : IET T) (s : σ) : M (Bool × IET T) := do
  if E.tracker.ttl = 0 then
    return (false, { E with tracker := ← E.trackerReset O s })
  else
    let E := { E with tracker := { E.tracker with ttl := E.tracker.ttl - 1 } }
    if E.size ≠ E.tracker.top.length then
      return (false, E)
    else if !(← samePermutation E.top E.bottom E.tracker.bottom) then
      return (false, E)
    else
      return (← allSimilar O E.tracker.lengths s E.tracker.top, E)

/-! ### Induction -/

/-- How the loop in `induce` ends. (interval_exchange_transformation.cc:207-230) -/
inductive LoopEnd
  /-- The limit has been reached. -/
  | exhausted
  /-- `break` because `foundSaddleConnection`. -/
  | found
  /-- `return {WITHOUT_PERIODIC_TRAJECTORY_AUTO_SIMILAR}` -/
  | autoSimilar
  deriving DecidableEq, Repr

/-- interval_exchange_transformation.cc:211-220: whether the tracker reports a loop. -/
def trackStep [CommRing T] [LinearOrder T] (O : LengthsOps σ T) (saf0 : Bool) (E : IET T) (s : σ) : M (Bool × IET T) :=
  if saf0 then do
    let (v, E) ← E.saf O s
    if v.length = 0 then return (false, E)
    else E.trackerLoop O s
  else .ok (false, E)

/-- interval_exchange_transformation.cc:210-229: the loop; the first argument is the number of iterations left. -/
def induceLoop [CommRing T] [LinearOrder T] (O : LengthsOps σ T) (saf0 : Bool) : ℕ → IET T → σ → M (LoopEnd × IET T × σ)
  | 0, E, s => .ok (.exhausted, E, s)
  | n + 1, E, s => do
    let (loop, E) ← E.trackStep O saf0 s
    if loop then return (.autoSimilar, E, s)
    else
      let (found, E, s) ← E.zorichInduction O s
      if found then return (.found, E, s)
      else
        let (found, E, s) ← E.swap.zorichInduction O s
        if found then return (.found, E.swap, s)
        else induceLoop O saf0 n E.swap s

/-- interval_exchange_transformation.cc:207-230: the loop for the given limit.  An unlimited loop (limit -1) runs for `fuel` iterations, when these
are used up the outcome is `Err.fuel`. A negative limit other than -1 makes no iteration. -/
def inducePhase [CommRing T] [LinearOrder T] (O : LengthsOps σ T) (fuel : ℕ) (limit : ℤ) (E : IET T) (s : σ) :
    M (LoopEnd × IET T × σ) :=
  if limit = 0 then .ok (.exhausted, E, s)
  else do
    let (zero, E) ← E.saf0 O s
    if limit = -1 then
      let r ← induceLoop O zero fuel E s
      if r.1 = .exhausted then .error .fuel else return r
    else
      induceLoop O zero limit.toNat E s

/-- interval_exchange_transformation.cc:246-256: merge the first bottom interval into the twin of the first top interval. -/
def mergeBottom (b t : Label) : List Label → List Label
  | [] => []
  | c :: rest => if c = t then b :: rest else c :: mergeBottom b t rest

/-- interval_exchange_transformation.cc:232-270: what happens after the loop. -/
def induceFinish [CommRing T] [LinearOrder T] (L : PPL) (O : LengthsOps σ T) (found : Bool) (E : IET T) (s : σ) :
    M (InductionStep T × IET T) := do
  let (right, E) ← E.reduce O s
  match right with
  | some right =>
    match E.bottom.getLast?, E.top.getLast? with
    | some b, some t => return ({ result := .separatingConnection, connection := some (b, t), additional := some right }, E)
    | _, _ => .error .ub
  | none =>
    match E.top, E.bottom with
    | t :: top, b :: bottom =>
      if (← O.cmp2 t b s) = 0 then
        return ({ result := .nonSeparatingConnection, connection := some (b, t) },
          { E with top := top, bottom := mergeBottom b t bottom })
      else do
        assertM (!found)
        let (bosh, E) ← E.boshernitzanNoPeriodicTrajectory L O s
        if bosh then return ({ result := .withoutPeriodicTrajectoryBoshernitzan }, E)
        else return ({ result := .limitReached }, E)
    | _, _ => .error .ub

/-- interval_exchange_transformation.cc:198-271 -/
def induce [CommRing T] [LinearOrder T] (L : PPL) (O : LengthsOps σ T) (fuel : ℕ) (limit : ℤ) (E : IET T) (s : σ) :
    M (InductionStep T × IET T × σ) := do
  if E.size = 1 then return ({ result := .cylinder }, E, s)
  else
    let (loopEnd, E, s) ← E.inducePhase O fuel limit s
    if loopEnd = .autoSimilar then return ({ result := .withoutPeriodicTrajectoryAutoSimilar }, E, s)
    else
      let (step, E) ← E.induceFinish L O (loopEnd = .found) s
      return (step, E, s)

/-! ### Comparison and construction -/

/-- interval_exchange_transformation.cc:383-393.  Lists of intervals are compared by label (impl/interval.hpp:37).  The two IETs can have different kinds of lengths. -/
def beq {σ' : Type} [DecidableEq T] (O : LengthsOps σ T) (O' : LengthsOps σ' T) (E : IET T) (s : σ) (E' : IET T) (s' : σ') : M Bool :=
  if E.top ≠ E'.top ∨ E.bottom ≠ E'.bottom then .ok false
  else allM (fun l => do return decide ((← O.get l s) = (← O'.get l s'))) E.top

/-- interval_exchange_transformation.cc:366-368: the positions in top of the labels of bottom; `std::find` returns `end` for a missing label. -/
def permutation (top bottom : List Label) : List ℕ := bottom.map (fun b => top.findIdx (fun t => t = b))

/-- interval_exchange_transformation.cc:362-381 -/
def equivalent {σ' : Type} [DecidableEq T] (O : LengthsOps σ T) (O' : LengthsOps σ' T) (E : IET T) (s : σ) (E' : IET T) (s' : σ') : M Bool :=
  if E.size ≠ E'.size then .ok false
  else if permutation E.top E.bottom ≠ permutation E'.top E'.bottom then .ok false
  else do
    let x ← E.top.mapM (fun l => O.get l s)
    let y ← E'.top.mapM (fun l => O'.get l s')
    return decide (x = y)

end IET

end Verif
