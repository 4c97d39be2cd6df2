import Verif.Model.Connections
import Verif.Model.IET

/-!
# Model of `DynamicalDecomposition`, `Component`, `HalfEdge` and `Separatrix`

A pointer to a component is its position in the deque of components (references into a deque stay valid when something is appended).
Only a single decomposition is considered at a time.
-/

namespace Verif

/-- `DecompositionState::Component` (libintervalxt/src/impl/decomposition_state.hpp:34-40); `none` is the indeterminate tribool. -/
structure Comp (T : Type) where
  iet : IET T
  cylinder : Option Bool := none
  withoutPeriodicTrajectory : Option Bool := none
  keane : Option Bool := none
  deriving DecidableEq, Repr

/-- `DecompositionState` (decomposition_state.hpp:33-67) together with the lengths shared by all its IETs.  The map of
connections is stored in `lengths`. -/
structure Decomp (σ T : Type) where
  comps : List (Comp T)
  lengths : LWC σ

/-- `ImplementationOf<HalfEdge>` (libintervalxt/src/impl/half_edge.impl.hpp:43-45). -/
structure HalfEdge where
  comp : ℕ
  label : Label
  top : Bool
  deriving DecidableEq, Repr

/-- `Side = std::variant<Connection, HalfEdge>` (libintervalxt/intervalxt/forward.hpp:62). -/
inductive Side
  | edge (h : HalfEdge)
  | conn (c : Conn)
  deriving DecidableEq, Repr

/-- `DecompositionStep::Result` (libintervalxt/intervalxt/decomposition_step.hpp:33-41). -/
inductive DResult
  | limitReached
  | cylinder
  | separatingConnection
  | nonSeparatingConnection
  | withoutPeriodicTrajectoryBoshernitzan
  | withoutPeriodicTrajectoryAutoSimilar
  | keane
  deriving DecidableEq, Repr

/-- `DecompositionStep` (decomposition_step.hpp:43-46). -/
structure DStep where
  result : DResult
  connection : Option Conn := none
  equivalent : Option (List Side) := none
  additional : Option ℕ := none
  deriving DecidableEq, Repr

namespace HalfEdge

/-- libintervalxt/src/half_edge.cc:48-54.  The assertion is for half edges of the same decomposition. -/
def eq (h g : HalfEdge) : M Bool :=
  if h.label = g.label then do
    assertM (h.comp = g.comp)
    return h.comp = g.comp && h.top = g.top
  else .ok false

/-- half_edge.cc:118-123 -/
def neg (h : HalfEdge) : HalfEdge := { h with top := !h.top }

end HalfEdge

namespace Side

/-- The loops in component.cc:224-231, 383-389, 405-412: connections are negated, half edges are kept. -/
def flip : Side → Side
  | edge h => edge h
  | conn c => conn c.neg

end Side

namespace Decomp

variable {σ T : Type}

/-! ### Construction -/

/-- libintervalxt/src/dynamical_decomposition.cc:45-56 and interval_exchange_transformation.cc:486-488: the lengths of the given
IET are wrapped (and still shared with the given IET). -/
def make [Zero T] [DecidableEq T] (O : LengthsOps σ T) (E : IET T) (s : σ) : M (Decomp σ T) := do
  let iet ← IET.mk? (LWC.ops O) E.top E.bottom ⟨s, [], ⟨[], fun _ => {}⟩, []⟩
  return ⟨[{ iet := iet }], ⟨s, [], ⟨E.top, fun _ => {}⟩, []⟩⟩

/-- implementation_of_decomposition.cc:39-45 -/
def connections (D : Decomp σ T) (l : Label) : M Conns := D.lengths.conns.at' l

/-- Dereferencing the pointer to a component. (impl/component.impl.hpp:55) -/
def comp (D : Decomp σ T) (i : ℕ) : M (Comp T) :=
  match D.comps[i]? with
  | some c => .ok c
  | none => .error .ub

/-- Assignment to a component. (component.cc:168) -/
def setComp (D : Decomp σ T) (i : ℕ) (c : Comp T) : Decomp σ T := { D with comps := D.comps.set i c }

/-- Change the connections of a label. (implementation_of_decomposition.cc:40-42) -/
def modify (D : Decomp σ T) (l : Label) (f : Conns → Conns) : M (Decomp σ T) := do
  let m ← D.lengths.conns.update l f
  return { D with lengths := { D.lengths with conns := m } }

/-! ### Contours and half edges -/

end Decomp

namespace Comp

variable {T : Type}

/-- component.cc:92-94: the labels of the top contour, left to right. -/
def topContour (c : Comp T) : List Label := if c.iet.swapped then c.iet.bottom else c.iet.top

/-- component.cc:96-98: the labels of the bottom contour, left to right. -/
def bottomContour (c : Comp T) : List Label := if c.iet.swapped then c.iet.top else c.iet.bottom

end Comp

namespace Decomp

variable {σ T : Type}

/-- component.cc:92-94 -/
def topContour (D : Decomp σ T) (i : ℕ) : M (List HalfEdge) := do
  return (← D.comp i).topContour.map (fun l => ⟨i, l, true⟩)

/-- component.cc:96-98 -/
def bottomContour (D : Decomp σ T) (i : ℕ) : M (List HalfEdge) := do
  return (← D.comp i).bottomContour.map (fun l => ⟨i, l, false⟩)

/-- half_edge.cc:79-85 -/
def heLeft (D : Decomp σ T) (h : HalfEdge) : M (List Conn) := do
  let c ← D.connections h.label
  return if h.top then c.topLeft else c.bottomLeft

/-- half_edge.cc:87-93 -/
def heRight (D : Decomp σ T) (h : HalfEdge) : M (List Conn) := do
  let c ← D.connections h.label
  return if h.top then c.topRight else c.bottomRight

/-- half_edge.cc:60-77 -/
def cross (D : Decomp σ T) (h : HalfEdge) : M (List Side) := do
  let left ← D.heLeft h
  let right ← D.heRight h
  if h.top then return right.map .conn ++ [.edge h] ++ (left.map .conn).reverse
  else return (left.map .conn).reverse ++ [.edge h] ++ right.map .conn

/-- The entry after `l` in a list, `none` if `l` is last; an assertion fails when `l` does not occur. (component.cc:426-433) -/
def after (l : Label) : List Label → M (Option Label)
  | [] => .error .assertFailed
  | c :: rest => if c = l then .ok rest.head? else after l rest

/-- component.cc:426-433.  The contour is the one of the IET, no matter if it is swapped. -/
def next (D : Decomp σ T) (h : HalfEdge) : M (Option HalfEdge) := do
  let c ← D.comp h.comp
  let l ← after h.label (if h.top then c.iet.top else c.iet.bottom)
  return l.map (fun l => ⟨h.comp, l, h.top⟩)

/-- component.cc:435-442.  Looking for the first occurrence and going back is the same as looking in the reversed list when there
are no duplicates. -/
def previous (D : Decomp σ T) (h : HalfEdge) : M (Option HalfEdge) := do
  let c ← D.comp h.comp
  let l ← after h.label (if h.top then c.iet.top else c.iet.bottom).reverse
  return l.map (fun l => ⟨h.comp, l, h.top⟩)

/-- half_edge.cc:103-116: the assertion that a half edge still is in its component. -/
def component (D : Decomp σ T) (h : HalfEdge) : M ℕ := do
  let contour ← if h.top then D.topContour h.comp else D.bottomContour h.comp
  assertM (h ∈ contour)
  return h.comp

/-! ### Separatrices -/

/-- The loop in separatrix.cc:58-66 over the reversed `topRight`. -/
def chainTop : List Conn → Sep → M Sep
  | [], s => .ok s
  | c :: cs, s => do
    assertM (s = c.target)
    chainTop cs { s with label := c.source.label }

/-- The loop in separatrix.cc:68-76. -/
def chainBottom : List Conn → Sep → M Sep
  | [], s => .ok s
  | c :: cs, s => do
    assertM (s = c.source)
    chainBottom cs { s with label := c.target.label }

/-- separatrix.cc:58-66 -/
def makeAtTop (D : Decomp σ T) (l : Label) : M Sep := do
  chainTop (← D.connections l).topRight.reverse ⟨l, false⟩

/-- separatrix.cc:68-76 -/
def makeAtBottom (D : Decomp σ T) (l : Label) : M Sep := do
  chainBottom (← D.connections l).bottomRight ⟨l, true⟩

/-- half_edge.cc:125-132 -/
def separatrix (D : Decomp σ T) (h : HalfEdge) : M (Option Sep) := do
  match ← D.next h with
  | none => return none
  | some _ => return some (← if h.top then D.makeAtTop h.label else D.makeAtBottom h.label)

/-! ### The perimeter -/

/-- The first element of a list; dereferencing `begin` of an empty list is undefined. (component.cc:54-61) -/
def headM (l : List Label) : M Label :=
  match l with
  | [] => .error .ub
  | a :: _ => .ok a

/-- The last element of a list. (component.cc:63-70) -/
def lastM (l : List Label) : M Label := headM l.reverse

/-- component.cc:54-61 -/
def left (D : Decomp σ T) (i : ℕ) : M (List Side) := do
  let c ← D.comp i
  let b ← D.connections (← headM c.bottomContour)
  let t ← D.connections (← headM c.topContour)
  return ((b.bottomLeft ++ t.topLeft).map .conn).reverse

/-- component.cc:63-70 -/
def right (D : Decomp σ T) (i : ℕ) : M (List Side) := do
  let c ← D.comp i
  let b ← D.connections (← lastM c.bottomContour)
  let t ← D.connections (← lastM c.topContour)
  return (b.bottomRight ++ t.topRight).map .conn

/-- The loop in component.cc:303-319 for the top contour; `first` is whether we are at the first half edge. -/
def horizontalTop (D : Decomp σ T) : Bool → List HalfEdge → M (List Side)
  | _, [] => .ok []
  | first, h :: rest => do
    let c ← D.connections h.label
    let before := if first then [] else c.topLeft.map Side.conn
    let after := if rest = [] then [] else (c.topRight.map Side.conn).reverse
    return before ++ [.edge h] ++ after ++ (← horizontalTop D false rest)

/-- The loop in component.cc:303-319 for the bottom contour. -/
def horizontalBottom (D : Decomp σ T) : Bool → List HalfEdge → M (List Side)
  | _, [] => .ok []
  | first, h :: rest => do
    let c ← D.connections h.label
    let before := if first then [] else (c.bottomLeft.map Side.conn).reverse
    let after := if rest = [] then [] else c.bottomRight.map Side.conn
    return before ++ [.edge h] ++ after ++ (← horizontalBottom D false rest)

/-- component.cc:76-78 and 293-324: from right to left. -/
def top (D : Decomp σ T) (i : ℕ) : M (List Side) := do
  return (← D.horizontalTop true (← D.topContour i)).reverse

/-- component.cc:72-74 and 293-324: from left to right. -/
def bottom (D : Decomp σ T) (i : ℕ) : M (List Side) := do
  D.horizontalBottom true (← D.bottomContour i)

/-- component.cc:46-52 -/
def perimeter (D : Decomp σ T) (i : ℕ) : M (List Side) := do
  let p := (← D.bottom i) ++ (← D.right i) ++ (← D.top i) ++ (← D.left i)
  assertM p.Nodup
  return p

/-! ### Walking around a component -/

/-- One step in component.cc:376-389 and 401-412: the connections at a half edge in reversed order and orientation. -/
def crossReversed (D : Decomp σ T) (h : HalfEdge) : M (List Side) := do
  return (← D.cross h).reverse.map Side.flip

/-- The loops in component.cc:373-397 and 398-421: walk along a contour until `dst` has been reached; the list are the labels
still ahead.  Also returns whether `dst` has been reached. -/
def walkAlong (D : Decomp σ T) (i : ℕ) (top : Bool) (dst : Label) : List Label → M (List Side × Bool)
  | [] => .ok ([], false)
  | l :: rest => do
    let c ← D.crossReversed ⟨i, l, top⟩
    if l = dst then return (c, true)
    else do
      let (cs, reached) ← walkAlong D i top dst rest
      return (c ++ cs, reached)

/-- component.cc:358-424, the first argument bounds the depth of the recursion. -/
def walkClockwise (D : Decomp σ T) : ℕ → HalfEdge → HalfEdge → M (List Side)
  | 0, _, _ => .error .fuel
  | n + 1, h, dst => do
    let i ← D.component h
    let j ← D.component dst
    assertM (i = j)
    let c ← D.comp i
    match h.top, dst.top with
    | false, true =>
      let x ← D.walkClockwise n h ⟨i, ← headM c.bottomContour, false⟩
      let y ← D.walkClockwise n ⟨i, ← headM c.topContour, true⟩ dst
      return x ++ y
    | true, false =>
      let x ← D.walkClockwise n h ⟨i, ← lastM c.topContour, true⟩
      let y ← D.walkClockwise n ⟨i, ← lastM c.bottomContour, false⟩ dst
      return x ++ y
    | true, true =>
      let (x, reached) ← D.walkAlong i true dst.label (c.iet.top.dropWhile (fun l => l ≠ h.label))
      if reached then return x
      else return x ++ (← D.walkClockwise n ⟨i, ← lastM c.bottomContour, false⟩ dst)
    | false, false =>
      let (x, reached) ← D.walkAlong i false dst.label (c.iet.bottom.reverse.dropWhile (fun l => l ≠ h.label))
      if reached then return x
      else return x ++ (← D.walkClockwise n ⟨i, ← headM c.topContour, true⟩ dst)

/-! ### Consistency -/

/-- The connections that are stored on the left of half edges, in the order in which they are visited. (dynamical_decomposition.cc:91-98) -/
def leftConns (c : Conns) : List Conn := c.topLeft ++ c.bottomLeft
/-- The connections that are stored on the right of half edges. (dynamical_decomposition.cc:99-106) -/
def rightConns (c : Conns) : List Conn := c.topRight ++ c.bottomRight

/-- dynamical_decomposition.cc:106-114: at each separatrix there are at most two connections, and two are the negatives of
each other. -/
def checkSeparatrices (all : List Conn) : M Unit :=
  (all.flatMap (fun c => [c.source, c.target])).forM (fun s =>
    let at' := all.flatMap (fun c => (if c.source = s then [c] else []) ++ (if c.target = s then [c] else []))
    match at' with
    | [a, b] => assertM (a = b.neg)
    | [_] => .ok ()
    | [] => .ok ()
    | _ => .error .assertFailed)

/-- dynamical_decomposition.cc:87-115 -/
def check (D : Decomp σ T) : M Unit := do
  D.lengths.conns.keys.forM (fun l => do
    assertM ((leftConns (D.lengths.conns.val l)).all Conn.antiparallel)
    assertM ((rightConns (D.lengths.conns.val l)).all Conn.parallel))
  checkSeparatrices (D.lengths.conns.keys.flatMap (fun l => leftConns (D.lengths.conns.val l) ++ rightConns (D.lengths.conns.val l)))

/-! ### Decomposition steps -/

/-- component.cc:344-356; computing the invariant fills the cache of the IET. -/
def boshernitzanCost (O : LengthsOps σ T) (E : IET T) (s : LWC σ) : M (Option ℤ × IET T) := do
  let (saf, E) ← E.safInvariant (LWC.ops O) s
  return (if saf.all (fun v => v = 0) then none else some 64, E)

/-- component.cc:188-195: how many steps of induction to perform in one round. -/
def chunkSize (cost : Option ℤ) (limit : ℤ) : ℤ :=
  match cost with
  | some c => if limit < 2 * c then limit else c
  | none => limit

/-- component.cc:186-203: the loop, at most the given number of rounds. -/
def chunks [CommRing T] [LinearOrder T] (L : PPL) (O : LengthsOps σ T) (cost : Option ℤ) :
    ℕ → ℤ → IET T → LWC σ → M (InductionStep T × IET T × LWC σ)
  | 0, _, _, _ => .error .fuel
  | n + 1, limit, E, s => do
    let steps := chunkSize cost limit
    let (step, E, s) ← E.induce L (LWC.ops O) 0 steps s
    if step.result = .limitReached ∧ limit - steps ≠ 0 then chunks L O cost n (limit - steps) E s
    else return (step, E, s)

/-- component.cc:330-342 -/
def registerSeparating (D : Decomp σ T) (i : ℕ) (separating : Conn) (j : ℕ) : M (Decomp σ T) := do
  assertM separating.parallel
  assertM (i ≠ j)
  let l ← lastM (← D.comp i).iet.bottom
  let D ← D.modify l (fun c => { c with bottomRight := c.bottomRight ++ [separating] })
  let r ← headM (← D.comp j).iet.bottom
  let D ← D.modify r (fun c => { c with bottomLeft := c.bottomLeft ++ [separating.neg] })
  assertM ((← D.right i) ≠ [])
  assertM ((← D.left j) ≠ [])
  return D

/-- component.cc:214-232: the case SEPARATING_CONNECTION, with dynamical_decomposition.cc:76-85. -/
def separating (D : Decomp σ T) (i : ℕ) (b t : Label) (additional : IET T) : M (DStep × Decomp σ T) := do
  let c ← D.comp i
  let equivalent ← D.walkClockwise 4 ⟨i, ← lastM c.bottomContour, false⟩ ⟨i, ← lastM c.topContour, true⟩
  let connection : Conn := ⟨← D.makeAtBottom b, ← D.makeAtTop t⟩
  let j := D.comps.length
  let D : Decomp σ T := { D with comps := D.comps ++ [{ iet := additional }] }
  let D ← D.registerSeparating i connection j
  return ({ result := .separatingConnection, connection := some connection, equivalent := some equivalent, additional := some j }, D)

/-- component.cc:233-275: the case NON_SEPARATING_CONNECTION. -/
def nonSeparating (D : Decomp σ T) (i : ℕ) (b t : Label) : M (DStep × Decomp σ T) := do
  assertM (b ≠ t)
  let x ← D.cross ⟨i, t, true⟩
  let y ← D.cross ⟨i, b, false⟩
  let equivalent := (x ++ y).reverse.map Side.flip
  let connection : Conn := ⟨← D.makeAtBottom b, ← D.makeAtTop t⟩
  let first ← headM (← D.comp i).iet.top
  assertM (first ≠ t)
  let D ← D.modify b (fun c => { c with bottomRight := c.bottomRight ++ [connection] })
  let D ← D.modify first (fun c => { c with topLeft := connection.neg :: c.topLeft })
  let ct ← D.connections t
  let D ← D.modify b (fun c => { c with
    bottomLeft := c.bottomLeft ++ ct.topLeft ++ ct.bottomLeft
    bottomRight := c.bottomRight ++ ct.topRight ++ ct.bottomRight })
  let D ← D.modify t (fun _ => {})
  assertM ((← D.left i) ≠ [])
  return ({ result := .nonSeparatingConnection, connection := some connection, equivalent := some equivalent }, D)

/-- The components other than `i`, as seen by the lengths. (dynamical_decomposition.cc:58-63 and impl/decomposition_state.hpp:64) -/
def others (D : Decomp σ T) (i : ℕ) : List Ctx := (D.comps.eraseIdx i).map (fun c => c.iet.ctx)

/-- component.cc:205-286: what is done with the result of the induction. -/
def conclude (D : Decomp σ T) (i : ℕ) (step : InductionStep T) : M (DStep × Decomp σ T) := do
  let c ← D.comp i
  match step.result, step.connection, step.additional with
  | .limitReached, _, _ => return ({ result := .limitReached }, D)
  | .cylinder, _, _ =>
    return ({ result := .cylinder }, D.setComp i { c with cylinder := some true, withoutPeriodicTrajectory := some false, keane := some false })
  | .separatingConnection, some (b, t), some additional => D.separating i b t additional
  | .nonSeparatingConnection, some (b, t), _ => D.nonSeparating i b t
  | .withoutPeriodicTrajectoryBoshernitzan, _, _ =>
    return ({ result := .withoutPeriodicTrajectoryBoshernitzan },
      D.setComp i { c with withoutPeriodicTrajectory := some true, cylinder := some false })
  | .withoutPeriodicTrajectoryAutoSimilar, _, _ =>
    return ({ result := .withoutPeriodicTrajectoryAutoSimilar },
      D.setComp i { c with withoutPeriodicTrajectory := some true, cylinder := some false })
  | _, _, _ => .error .ub

/-- component.cc:165-287 for a limit other than -1.  The assertion in line 166 on tribools only fails when it is certain that both are true. -/
def decompositionStepBounded [CommRing T] [LinearOrder T] (L : PPL) (O : LengthsOps σ T) (limit : ℤ) (i : ℕ) (D : Decomp σ T) :
    M (DStep × Decomp σ T) := do
  let c ← D.comp i
  assertM (¬ (c.cylinder = some true ∧ c.keane = some true))
  let s := { D.lengths with others := D.others i }
  let (cost, E) ← boshernitzanCost O c.iet s
  let (step, E, s) ← chunks L O cost (limit.toNat + 1) limit E s
  conclude { D.setComp i { c with iet := E } with lengths := s } i step

/-- The largest value of an `int`. (component.cc:180) -/
def intMax : ℤ := 2 ^ 31 - 1

/-- component.cc:172-182: the loop for the limit -1, at most the given number of rounds.  Overflow of the `int` is undefined. -/
def unlimited [CommRing T] [LinearOrder T] (L : PPL) (O : LengthsOps σ T) (cost : Option ℤ) (i : ℕ) :
    ℕ → ℤ → Decomp σ T → M (DStep × Decomp σ T)
  | 0, _, _ => .error .fuel
  | n + 1, limit, D => do
    let (step, D) ← D.decompositionStepBounded L O limit i
    if step.result ≠ .limitReached then return (step, D)
    else match cost with
      | some c => unlimited L O cost i n c D
      | none => if 2 * (limit + 1) ≤ intMax then unlimited L O cost i n (2 * (limit + 1)) D else .error .ub

/-- component.cc:165-287 -/
def decompositionStep [CommRing T] [LinearOrder T] (L : PPL) (O : LengthsOps σ T) (fuel : ℕ) (limit : ℤ) (i : ℕ) (D : Decomp σ T) :
    M (DStep × Decomp σ T) := do
  if limit = -1 then
    let c ← D.comp i
    assertM (¬ (c.cylinder = some true ∧ c.keane = some true))
    let (cost, E) ← boshernitzanCost O c.iet D.lengths
    unlimited L O cost i fuel 0 (D.setComp i { c with iet := E })
  else D.decompositionStepBounded L O limit i

/-! ### Decomposing -/

/-- component.cc:444-464.  Simplification: the target is a function of the data of the component.  The recursion is bounded by
the first argument. -/
def decomposeComponent [CommRing T] [LinearOrder T] (L : PPL) (O : LengthsOps σ T) (target : Comp T → Bool) (limit : ℤ) :
    ℕ → ℕ → Decomp σ T → M (Bool × Decomp σ T)
  | 0, _, _ => .error .fuel
  | n + 1, i, D => do
    let c ← D.comp i
    if target c then return (true, D)
    else
      let (step, D) ← D.decompositionStep L O n limit i
      if step.result = .limitReached then return (false, D)
      else match step.additional with
        | some j =>
          let (x, D) ← D.decomposeComponent L O target limit n j
          let (y, D) ← D.decomposeComponent L O target limit n i
          return (x && y, D)
        | none => D.decomposeComponent L O target limit n i

/-- The loop of dynamical_decomposition.cc:67 (`std::all_of`). -/
def decomposeAll [CommRing T] [LinearOrder T] (L : PPL) (O : LengthsOps σ T) (target : Comp T → Bool) (limit : ℤ) (fuel : ℕ) :
    List ℕ → Decomp σ T → M (Bool × Decomp σ T)
  | [], D => .ok (true, D)
  | i :: is, D => do
    let (x, D) ← D.decomposeComponent L O target limit fuel i
    if x then decomposeAll L O target limit fuel is D else return (false, D)

/-- dynamical_decomposition.cc:65-68 -/
def decompose [CommRing T] [LinearOrder T] (L : PPL) (O : LengthsOps σ T) (target : Comp T → Bool) (limit : ℤ) (fuel : ℕ)
    (D : Decomp σ T) : M (Bool × Decomp σ T) :=
  D.decomposeAll L O target limit fuel (List.range D.comps.length)

/-- The default target (libintervalxt/intervalxt/component.hpp:89-91). -/
def defaultTarget (c : Comp T) : Bool := c.cylinder = some true || c.withoutPeriodicTrajectory = some true

/-! ### Other functions of components -/

/-- The part of component.cc:112-163 for the left side: the new connections, and the connections in the order in which they are
returned. -/
def injectLeft (top : Bool) (left : List (Label × Label)) : List Conn × List Conn :=
  let new := (if top then left.reverse else left).map (fun p => (⟨⟨p.1, false⟩, ⟨p.2, true⟩⟩ : Conn))
  (new, if top then new.reverse else new)

/-- The part of component.cc:112-163 for the right side. -/
def injectRight (top : Bool) (right : List (Label × Label)) : List Conn × List Conn :=
  let new := (if top then right.reverse else right).map (fun p => (⟨⟨p.1, true⟩, ⟨p.2, false⟩⟩ : Conn))
  (new, if top then new.reverse else new)

/-- component.cc:112-163 -/
def inject (D : Decomp σ T) (h : HalfEdge) (left right : List (Label × Label)) : M ((List Conn × List Conn) × Decomp σ T) := do
  D.check
  let c ← D.connections h.label
  assertM (left = [] ∨ (if h.top then c.topLeft else c.bottomLeft) = [])
  let D ← D.modify h.label (fun c => if h.top then { c with topLeft := c.topLeft ++ (injectLeft true left).1 }
    else { c with bottomLeft := c.bottomLeft ++ (injectLeft false left).1 })
  assertM (right = [] ∨ (if h.top then c.topRight else c.bottomRight) = [])
  let D ← D.modify h.label (fun c => if h.top then { c with topRight := c.topRight ++ (injectRight true right).1 }
    else { c with bottomRight := c.bottomRight ++ (injectRight false right).1 })
  D.check
  return (((injectLeft h.top left).2, (injectRight h.top right).2), D)

/-- component.cc:466-469: a new IET with a copy of the lengths. -/
def iet [CommRing T] [LinearOrder T] (O : LengthsOps σ T) (A : Arith T) (i : ℕ) (D : Decomp σ T) : M (IET T × SLengths T) := do
  let c ← D.comp i
  let f ← O.forget D.lengths.inner
  let E ← IET.mk? (SLengths.ops A) c.iet.top c.iet.bottom f
  return (E, f)

end Decomp

end Verif
