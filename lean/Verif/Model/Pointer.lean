import Verif.Model.World

/-!
# Model of `IntervalExchangeTransformation` on the level of list nodes

In the code, `top` and `bottom` are `std::list<Interval>` and an `Interval` consists of a label and an iterator to the interval with the
same label in the other list, its `twin` (libintervalxt/src/impl/interval.hpp:31-42).  Here, nodes have addresses, iterators are
addresses, and all nodes of all IETs live in one memory.  The functions below are those that follow or change twins or relink nodes;
all others (`saf`, `translations`, `boshernitzan…`, `SimilarityTracker::…`) only read the labels of the lists from left to right, they
are run on the labels that are read (`PIET.view`).

Using an iterator that is singular (default constructed) or refers to an erased node is undefined behaviour, `Err.ub`.

Simplification: the memory of an erased node is never used again, so an iterator to an erased node never becomes valid by accident.

Line numbers refer to libintervalxt/src/interval_exchange_transformation.cc.
-/

namespace Verif

/-- The address of a node of a `std::list`, i.e., what an iterator refers to. -/
scoped notation "Addr" => Nat

/-- `Interval` (impl/interval.hpp:31-42); `none` is a singular iterator. -/
structure Node where
  label : Label
  twin : Option Addr
  deriving DecidableEq, Repr

/-- The nodes; nothing has been allocated at `next` and later. (impl/interval.hpp:31-42) -/
structure Mem where
  node : Addr → Option Node
  next : Addr

namespace Mem

/-- No nodes at all. (impl/interval.hpp:31-42) -/
def empty : Mem := ⟨fun _ => none, 0⟩

/-- `*it` (impl/interval.hpp:31-42) -/
def read (m : Mem) (a : Addr) : M Node :=
  match m.node a with
  | some n => .ok n
  | none => .error .ub

/-- `it->label` (impl/interval.hpp:40) -/
def label (m : Mem) (a : Addr) : M Label := do return (← m.read a).label

/-- `it->twin`, to be dereferenced (impl/interval.hpp:41) -/
def twin (m : Mem) (a : Addr) : M Addr := do
  match (← m.read a).twin with
  | some b => return b
  | none => .error .ub

/-- Overwrite a node. (impl/interval.hpp:31-42) -/
def put (m : Mem) (a : Addr) (n : Option Node) : Mem := ⟨fun x => if x = a then n else m.node x, m.next⟩

/-- `it->label = l` (impl/interval.hpp:40) -/
def setLabel (m : Mem) (a : Addr) (l : Label) : M Mem := do return m.put a (some ⟨l, (← m.read a).twin⟩)

/-- `it->twin = b` (impl/interval.hpp:41) -/
def setTwin (m : Mem) (a b : Addr) : M Mem := do return m.put a (some ⟨(← m.read a).label, some b⟩)

/-- A new node with a copy of an interval. (impl/interval.hpp:33-34) -/
def alloc (m : Mem) (n : Node) : Addr × Mem := (m.next, ⟨fun x => if x = m.next then some n else m.node x, m.next + 1⟩)

/-- Release the node, iterators to it become invalid. (interval_exchange_transformation.cc:249-256 and 350-353) -/
def free (m : Mem) (a : Addr) : Mem := m.put a none

/-- Read the labels of a list. (interval_exchange_transformation.cc:281-287) -/
def labels (m : Mem) (l : List Addr) : M (List Label) := l.mapM m.label

/-- interval_exchange_transformation.cc:396-397: a list of new intervals with singular twins (impl/interval.hpp:32-34). -/
def newList : List Label → Mem → List Addr × Mem
  | [], m => ([], m)
  | l :: ls, m =>
    let (a, m) := m.alloc ⟨l, none⟩
    let (as, m) := newList ls m
    (a :: as, m)

/-- interval_exchange_transformation.cc:406-411: the inner loop. -/
def linkRow (t : Addr) : List Addr → Mem → M Mem
  | [], m => .ok m
  | b :: bs, m => do
    if (← m.label t) = (← m.label b) then
      let m ← m.setTwin t b
      let m ← m.setTwin b t
      linkRow t bs m
    else linkRow t bs m

/-- interval_exchange_transformation.cc:405-412: the nested loops. -/
def link : List Addr → List Addr → Mem → M Mem
  | [], _, m => .ok m
  | t :: ts, bs, m => do
    let m ← linkRow t bs m
    link ts bs m

/-- The loops: read the labels and erase the nodes. (interval_exchange_transformation.cc:350-353) -/
def eraseAll : List Addr → Mem → M (List Label × Mem)
  | [], m => .ok ([], m)
  | a :: as, m => do
    let l ← m.label a
    let (ls, m) ← eraseAll as (m.free a)
    return (l :: ls, m)

/-- interval_exchange_transformation.cc:316-322 and 324-330: compare the label with the label of the twin. If these differ, flip the twin's label and return `true`,
otherwise flip the own label and return `false`. -/
def flip (m : Mem) (a : Addr) : M (Bool × Mem) := do
  let l ← m.label a
  let b ← m.twin a
  let l' ← m.label b
  if l ≠ l' then
    return (true, ← m.setLabel b (l' ^^^ 1))
  else
    return (false, ← m.setLabel a (l ^^^ 1))

end Mem

/-- `ImplementationOf<IntervalExchangeTransformation>` except for the shared lengths (impl/interval_exchange_transformation.impl.hpp:68-73). -/
structure PIET (T : Type) where
  top : List Addr
  bottom : List Addr
  safCache : Option (List ℚ)
  tracker : Tracker T
  swapped : Bool

/-- `InductionStep` (libintervalxt/intervalxt/induction_step.hpp:43-46). -/
structure PStep (T : Type) where
  result : Result
  connection : Option (Label × Label) := none
  additional : Option (PIET T) := none

namespace PIET

variable {σ T : Type}

/-- interval_exchange_transformation.cc:281-287: `top()` and `bottom()`, together with the other members. -/
def view (m : Mem) (P : PIET T) : M (IET T) := do
  return ⟨← m.labels P.top, ← m.labels P.bottom, P.safCache, P.tracker, P.swapped⟩

/-- Functions that do not touch the lists can still update the cache and the tracker. (interval_exchange_transformation.cc:419-431) -/
def aux (P : PIET T) (E : IET T) : PIET T := { P with safCache := E.safCache, tracker := E.tracker }

/-- interval_exchange_transformation.cc:273-279 and 395-415: the constructor. -/
def mk? [Zero T] [DecidableEq T] (O : LengthsOps σ T) (top bottom : List Label) (s : σ) (m : Mem) : M (PIET T × Mem) := do
  let (ts, m) := m.newList top
  let (bs, m) := m.newList bottom
  assertM (top.length = bottom.length)
  assertM (top.dedup.length = bottom.dedup.length)
  assertM (top.dedup.length = top.length)
  let m ← m.link ts bs
  let lens ← top.mapM (fun l => O.get l s)
  assertM (lens.all (fun x => x ≠ 0))
  assertM (top.length ≠ 0)
  return (⟨ts, bs, none, Tracker.init, false⟩, m)

/-- interval_exchange_transformation.cc:289-292: `std::list::swap` exchanges the nodes of the lists, iterators remain valid. -/
def swap (P : PIET T) : PIET T := { P with top := P.bottom, bottom := P.top, swapped := !P.swapped }

/-- interval_exchange_transformation.cc:302-304 -/
def size (P : PIET T) : ℕ := P.top.length

/-- interval_exchange_transformation.cc:92-94, see `IET.walkBack`. -/
def walkBack (m : Mem) (stop : Label) : List Addr → List Addr → M (List Addr × List Addr)
  | _, [] => .error .ub
  | [], c :: suf => do if (← m.label c) = stop then return ([c], suf) else .error .ub
  | p :: rev, c :: suf => do
    if (← m.label c) = stop then return ((c :: p :: rev).reverse, suf) else walkBack m stop rev (p :: c :: suf)

/-- interval_exchange_transformation.cc:88-110, see `IET.zorichLoop`. -/
def zorichLoop (m : Mem) (O : LengthsOps σ T) (ctx : Ctx) (a : Addr) :
    List Addr → List Addr → σ → M ((List Addr × List Addr) × σ)
  | _, [], _ => .error .ub
  | rev, b :: rest, s => do
    if (← m.label b) = (← m.label a) then do
      let (stop, s) ← O.subtractRepeated ctx (← m.label a) s
      let cut ← walkBack m stop rev (b :: rest)
      return (cut, s)
    else do
      let s ← O.push (← m.label b) s
      if 0 ≤ (← O.cmp (← m.label a) s) then
        let s ← O.pop s
        let s ← O.subtract ctx (← m.label a) s
        return ((rev.reverse, b :: rest), s)
      else
        zorichLoop m O ctx a (b :: rev) rest s

/-- `std::list::insert` and `std::list::splice` (112, 250): put the nodes directly before the node `q`.  It is undefined when `q` is not a
node of the remaining list. (interval_exchange_transformation.cc:112 and 248) -/
def insertAt (q : Addr) (new : List Addr) : List Addr → M (List Addr)
  | [] => .error .ub
  | c :: rest => if c = q then .ok (new ++ c :: rest) else do
    return c :: (← insertAt q new rest)

/-- `std::list::erase` (258); it is undefined when `q` is not a node of the list. (interval_exchange_transformation.cc:256) -/
def eraseAt (q : Addr) : List Addr → M (List Addr)
  | [] => .error .ub
  | c :: rest => if c = q then .ok rest else do
    return c :: (← eraseAt q rest)

/-- interval_exchange_transformation.cc:79-115 -/
def zorichInduction (m : Mem) (O : LengthsOps σ T) (P : PIET T) (s : σ) : M (Bool × PIET T × σ) :=
  match P.top, P.bottom with
  | a :: _, b :: _ => do
    if (← m.label a) = (← m.label b) then return (true, P, s)
    else do
      let top ← m.labels P.top
      let ((moved, rest), s) ← zorichLoop m O ⟨top, P.swapped⟩ a [] P.bottom s
      let bottom ← insertAt (← m.twin a) moved rest
      match bottom with
      | [] => .error .ub
      | b' :: _ =>
        let c ← O.cmp2 (← m.label a) (← m.label b') s
        return (c = 0, { P with bottom := bottom }, s)
  | _, _ => .error .ub

/-- interval_exchange_transformation.cc:312-341: the loop, given the nodes from the iterators on. -/
def reduceLoop : List Addr → List Addr → Int → Int → ℕ → Mem → M (ℕ × Mem)
  | t :: ts, b :: bs, topAhead, bottomAhead, n, m => do
    let (d, m) ← m.flip t
    let (topAhead, bottomAhead) := if d then (topAhead, bottomAhead - 1) else (topAhead + 1, bottomAhead)
    let (d, m) ← m.flip b
    let (topAhead, bottomAhead) := if d then (topAhead - 1, bottomAhead) else (topAhead, bottomAhead + 1)
    if topAhead = 0 ∧ bottomAhead = 0 then return (n + 1, m)
    else reduceLoop ts bs topAhead bottomAhead (n + 1) m
  | _, _, _, _, _, _ => .error .assertFailed

/-- interval_exchange_transformation.cc:306-360 -/
def reduce [Zero T] [DecidableEq T] (O : LengthsOps σ T) (P : PIET T) (s : σ) (m : Mem) : M (Option (PIET T) × PIET T × Mem) := do
  let (k, m) ← reduceLoop P.top P.bottom 0 0 0 m
  if k = P.top.length then do
    assertM (k = P.bottom.length)
    return (none, P, m)
  else do
    let (newTop, m) ← m.eraseAll (P.top.drop k)
    let (newBottom, m) ← m.eraseAll (P.bottom.drop k)
    let left := { P with top := P.top.take k, bottom := P.bottom.take k, safCache := none }
    assertM (left.top.length = left.bottom.length)
    let (right, m) ← mk? O newTop newBottom s m
    return (some right, left, m)

/-- interval_exchange_transformation.cc:210-229 -/
def induceLoop [CommRing T] [LinearOrder T] (m : Mem) (O : LengthsOps σ T) (saf0 : Bool) : ℕ → PIET T → σ → M (IET.LoopEnd × PIET T × σ)
  | 0, P, s => .ok (.exhausted, P, s)
  | n + 1, P, s => do
    let (loop, E) ← (← P.view m).trackStep O saf0 s
    let P := P.aux E
    if loop then return (.autoSimilar, P, s)
    else
      let (found, P, s) ← P.zorichInduction m O s
      if found then return (.found, P, s)
      else
        let (found, P, s) ← P.swap.zorichInduction m O s
        if found then return (.found, P.swap, s)
        else induceLoop m O saf0 n P.swap s

/-- interval_exchange_transformation.cc:207-230, see `IET.inducePhase`. -/
def inducePhase [CommRing T] [LinearOrder T] (m : Mem) (O : LengthsOps σ T) (fuel : ℕ) (limit : ℤ) (P : PIET T) (s : σ) :
    M (IET.LoopEnd × PIET T × σ) :=
  if limit = 0 then .ok (.exhausted, P, s)
  else do
    let (zero, E) ← (← P.view m).saf0 O s
    let P := P.aux E
    if limit = -1 then
      let r ← induceLoop m O zero fuel P s
      if r.1 = .exhausted then .error .fuel else return r
    else
      induceLoop m O zero limit.toNat P s

/-- `list.erase(begin(list))`, the address of the erased node and the rest. (interval_exchange_transformation.cc:249 and 255) -/
def popFront : List Addr → M (Addr × List Addr)
  | [] => .error .ub
  | c :: rest => .ok (c, rest)

/-- interval_exchange_transformation.cc:246-256: merge the first bottom interval into the twin of the first top interval, given copies of the first intervals. -/
def merge (firstTop firstBottom : Node) (P : PIET T) (m : Mem) : M (PIET T × Mem) := do
  match firstTop.twin with
  | none => .error .ub
  | some q =>
    let (replacement, m) := m.alloc firstBottom
    let bottom ← insertAt q [replacement] P.bottom
    let (b, bottom) ← popFront bottom
    let m := m.free b
    let u ← m.twin replacement
    let m ← m.setTwin u replacement
    let (t, top) ← popFront P.top
    let m := m.free t
    let bottom ← eraseAt q bottom
    let m := m.free q
    return ({ P with top := top, bottom := bottom }, m)

/-- interval_exchange_transformation.cc:232-270 -/
def induceFinish [CommRing T] [LinearOrder T] (L : PPL) (O : LengthsOps σ T) (found : Bool) (P : PIET T) (s : σ) (m : Mem) :
    M (PStep T × PIET T × Mem) := do
  let (right, P, m) ← P.reduce O s m
  match right with
  | some right =>
    match P.bottom.getLast?, P.top.getLast? with
    | some b, some t =>
      return ({ result := .separatingConnection, connection := some (← m.label b, ← m.label t), additional := some right }, P, m)
    | _, _ => .error .ub
  | none =>
    match P.top, P.bottom with
    | t :: _, b :: _ => do
      let firstTop ← m.read t
      let firstBottom ← m.read b
      if (← O.cmp2 firstTop.label firstBottom.label s) = 0 then
        let (P', m) ← P.merge firstTop firstBottom m
        return ({ result := .nonSeparatingConnection, connection := some (firstBottom.label, firstTop.label) }, P', m)
      else do
        assertM (!found)
        let (bosh, E) ← (← P.view m).boshernitzanNoPeriodicTrajectory L O s
        let P := P.aux E
        if bosh then return ({ result := .withoutPeriodicTrajectoryBoshernitzan }, P, m)
        else return ({ result := .limitReached }, P, m)
    | _, _ => .error .ub

/-- interval_exchange_transformation.cc:198-271 -/
def induce [CommRing T] [LinearOrder T] (L : PPL) (O : LengthsOps σ T) (fuel : ℕ) (limit : ℤ) (P : PIET T) (s : σ) (m : Mem) :
    M (PStep T × PIET T × σ × Mem) := do
  if P.size = 1 then return ({ result := .cylinder }, P, s, m)
  else
    let (loopEnd, P, s) ← P.inducePhase m O fuel limit s
    if loopEnd = .autoSimilar then return ({ result := .withoutPeriodicTrajectoryAutoSimilar }, P, s, m)
    else
      let (step, P, m) ← P.induceFinish L O (loopEnd = .found) s m
      return (step, P, s, m)

end PIET

/-- The IETs a user holds, the lengths shared by them, and the memory their nodes live in. (interval_exchange_transformation.hpp:39-118) -/
structure PWorld (σ T : Type) where
  pieces : List (PIET T)
  lengths : σ
  mem : Mem

namespace Op

variable {σ T : Type} [CommRing T] [LinearOrder T]

/-- Run an operation on an IET, see `Op.call`. (interval_exchange_transformation.cc:79-360) -/
def pcall (L : PPL) (O : LengthsOps σ T) (fuel : ℕ) : Op → PIET T → σ → Mem → M (List (PIET T) × PIET T × σ × Mem)
  | zorichInduction _, P, s, m => do
    let (_, P, s) ← P.zorichInduction m O s
    return ([], P, s, m)
  | swap _, P, s, m => .ok ([], P.swap, s, m)
  | reduce _, P, s, m => do
    let (R, P, m) ← P.reduce O s m
    return (R.toList, P, s, m)
  | induce _ limit, P, s, m => do
    let (step, P, s, m) ← P.induce L O fuel limit s m
    return (step.additional.toList, P, s, m)
  | safInvariant _, P, s, m => do
    let (_, E) ← (← P.view m).safInvariant O s
    return ([], P.aux E, s, m)
  | boshernitzanNoPeriodicTrajectory _, P, s, m => do
    let (_, E) ← (← P.view m).boshernitzanNoPeriodicTrajectory L O s
    return ([], P.aux E, s, m)

/-- Run an operation in a world, see `Op.exec`. (interval_exchange_transformation.cc:79-360) -/
def pexec (L : PPL) (O : LengthsOps σ T) (fuel : ℕ) (op : Op) (w : PWorld σ T) : M (PWorld σ T) :=
  match w.pieces[op.index]? with
  | none => .ok w
  | some P => do
    let (new, P, s, m) ← op.pcall L O fuel P w.lengths w.mem
    return ⟨w.pieces.set op.index P ++ new, s, m⟩

end Op

end Verif
