# Formal model of libintervalxt in Lean 4

## Trusted base

* The kernel of Lean 4.33.0.  Theorems depend on no axioms other than
  `propext`, `Classical.choice` and `Quot.sound` (section "Axioms" below records
  the audit).
* The correspondence between the C++ text in `/repo/libintervalxt` and the
  definitions in `Verif/Model/*`.  Each definition cites the lines it models.
* The statements in `Verif/Spec.lean`, in `Verif/SpecSurface.lean`, in `Verif/SpecVertex.lean`, in `Verif/SpecMinimal.lean`, in `Verif/SpecItinerary.lean` and in `Verif/Props/*`.

## Architecture

```
Verif/Spec.lean          abstract interval exchange maps, first return maps, orbits: no code
Verif/SpecMinimal.lean   minimal transformations
Verif/SpecItinerary.lean itineraries of points and saddle connections
Verif/SpecSurface.lean   the surface of an IET: rays at vertices, quarter turns, closed contours
Verif/SpecVertex.lean    the vertices of the polygon from which the surface is glued
Verif/Model/*.lean       the code, function by function (computable, in `Except Err`)
Verif/Proofs/*.lean      helper lemmas
Verif/Props/*.lean       the property theorems, each followed by a non-trivial instance
```

* Labels are natural numbers (`Label::id`).
* A failing assertion, a thrown exception and undefined behaviour are distinct
  outcomes `Err` of `Except Err`.  An unlimited loop takes fuel, running out
  of fuel is the outcome `Err.fuel` which is never identified with success.
* Lengths live in an arbitrary linearly ordered commutative ring `T`.  The
  sample implementation `sample::Lengths<T>` is modelled literally (vector plus
  stack).  Floor division is a parameter with a law, and the law is proved for
  the integer and rational implementations of the repository.  The map from
  lengths to coefficient vectors is a parameter that has to be additive.
* The virtual interface `intervalxt::Lengths` is a record of operations; a
  *contract* on it is what the induction relies on.  The contract is proved
  for the sample implementation and for `LengthsWithConnections` around any
  implementation satisfying it.
* The lists of an IET are modelled at two levels: lists of labels, and (module
  `Model/Pointer`) lists of nodes with twin pointers in a heap where `reduce`
  flips bits of label ids.  A refinement theorem relates them.
* `shared_ptr<Lengths>` is modelled by keeping the length state outside the
  IETs and threading it through all operations, so that aliasing is visible.
* The points of an IET live in an ordered ring `P` into which `T` embeds by an
  order preserving additive map (e.g. the reals), so theorems about "every
  point" are not restricted to points of `T`.
* The PPL is a parameter: a decision procedure for emptiness of polyhedra,
  assumed to be correct.  Gordan's theorem over the rationals is proved, not
  assumed.

### What is modelled

| module | code |
|--------|------|
| `Model/Base` | outcomes: exceptions, failed assertions, undefined behaviour |
| `Model/Lengths` | the interface `Lengths` as a record of operations; `sample::Lengths<T>` (sample/detail/lengths.ipp) |
| `Model/Make` | `sample::Lengths::make` which returns lengths and their labels; the default constructors of lengths and of labels |
| `Model/Arithmetic` | the floor division and coefficient functors (sample/arithmetic.hpp, integer and rational) |
| `Model/Subspace` | `RationalAffineSubspace`, the parts used by the induction (src/rational_affine_subspace.cc); PPL is a parameter |
| `Model/Codimension` | the strategy PPL_QUOTIENT of `hasNonZeroNonNegativeVector` with the assertion about the codimension; a further function of the PPL as a parameter |
| `Model/Generators` | `RationalAffineSubspace`: default constructor, constructor from generators, `operator==`; further functions of the PPL as a parameter |
| `Model/Maps` | elementary transformations and dimension swaps of polyhedra |
| `Model/IET` | `IntervalExchangeTransformation` and `SimilarityTracker` on lists of labels |
| `Model/Pointer` | the same on list nodes with twin iterators in memory, including the bit flips in `reduce` |
| `Model/PointerDecomp` | decompositions whose components are such lists of nodes: constructor, `decompositionStep`, `decompose`, `inject` |
| `Model/World` | histories of calls on several IETs that share one `Lengths` object |
| `Model/Render` | names of labels |
| `Model/Print` | `operator<<` of IETs, separatrices, connections, half edges, components, decompositions and decomposition steps |
| `Model/Connections` | `LengthsWithConnections`, `Connection` |
| `Model/Decomposition` | `DynamicalDecomposition`, `Component`, `HalfEdge`, `Separatrix` |
| `Model/Hash` | the hash functions of labels, half edges, separatrices |
| `Model/FieldCoefficients` | `Coefficients` for elements of number fields and modules (renf_elem_coefficients.hpp, element_coefficients.hpp) |
| `Model/Machine` | `sample::Lengths` for signed machine integers, every sum, difference, product and quotient has to be in range (lengths.ipp, integer_floor_division.hpp) |
| `Model/Serialize` | saving and loading labels, sample lengths and IETs, shared pointers in an archive (cereal.hpp, sample/cereal.hpp) |
| `Model/Erased` | saving and loading type-erased lengths of several types (erased/serializable.hpp, erased/detail/\*, erased/cereal.hpp); with the numbering of types by cereal |
| `Model/Archive` | saving and loading IETs with type-erased lengths: the table of shared pointers and the table of names of types of an archive together (cereal.hpp:66-92, erased/serializable.hpp:66-78) |
| `Model/Exceptions` | the functions of IETs that call `coefficients()`, with the state that they leave behind when it throws |
| `Model/ExceptionsDecomp` | `decompositionStep` and `decompose`, with the state that they leave behind when `coefficients()` throws |
| `Model/Counter` | `induce` with the `int` counter of its loop |
| `Model/Heap` | `shared_ptr<Lengths>`: several IETs and decompositions with shared lengths |
| `Model/Lifetime` | object lifetimes: which objects are kept alive by `shared_ptr`, with reference counts; `weak_ptr` and raw pointers; variables that have been moved from |
| `Model/Python` | creating IETs from Python (pyintervalxt/cppyy_intervalxt.py, cppyy.hpp) and `iet.lengths()` there |
| `Model/PythonViews` | the wrappers of `left()`, `right()`, `top()`, and `bottom()` in Python (pyintervalxt/cppyy_intervalxt.py) |
| `Model/Registrar` | `LengthRegistrar` and `Lengths()` in Python: which types of lengths are registered with cereal and when |
| `Model/Checks` | the checks of util/assert.ipp and the environment variables that disable them; all the functions of `Lengths`, `Subspace`, `IET`, `World`, `Connections` and `Decomposition` that contain checks, with each kind of check enabled or not |

### Simplifications

* `int` counters (`limit`, `topAhead`, `i` in `induce`) are unbounded except where a theorem says otherwise: `decompositionStep(-1)`
  escalates its limit as `2 * (limit + 1)` and the model fails when that leaves the range of `int`.  The counter `i` in `induce(-1)`
  overflows after 2^31 iterations.  `Model/Counter` models this and C76 says when it happens (C54 bounds the number of iterations for
  commensurable lengths); in the other theorems about `induce(-1)` the counter is unbounded.
* Coefficients come from one fixed additive map `T → ℚ^d`.  The implementations for number fields and modules choose a basis anew for every
  list of elements.  C63 removes this simplification when `T` has finite rank (the map is injective): with any function that returns
  coordinates over bases chosen per call, of any size, all results are the same.  C65 shows that the implementations for number fields and
  modules return such coordinates, unless `Coefficients<renf_elem_class>` throws because of elements from different number fields.
* In `Model/FieldCoefficients` elements of number fields are given by numerators and denominators over the powers of a generator, two fields are
  equal if they have the same index.  Elements of modules are given by rational coefficients at generators.  The arithmetic of these elements is
  not modelled.
* Except in `Model/Exceptions` and `Model/ExceptionsDecomp`, the state after a call that throws is not modelled.  Exceptions for lack of memory are not modelled.
* In `Model/Maps` polyhedra are sets of rational points; negative dimensions are not modelled.
* The target of `decompose` is a function of the data of a component.
* Labels are natural numbers, their hash is the identity; `size_t` wrap around is only modelled for the tracker's `periodBound`.
* Iteration order of unordered containers never matters in the modelled code (it is either a set that is only queried, or all entries
  have the same size); where an order is needed the model takes the order of insertion.
* `Component::inject` is not one of the steps in the histories `DReach` on which most properties of decompositions are stated.  The histories `IReach` of C62 contain it; by `C62_dynamics` everything about components and lengths carries over from `DReach` to `IReach`.
* `Model/Heap` uses `sample::Lengths` only.
* Memory of erased nodes is never reused in `Model/Pointer`, memory of destroyed objects is never reused in `Model/Lifetime`.
* `Model/Lifetime` does not model the contents of objects: whether a call splits an IET is arbitrary.  Copying a variable that has been moved from counts as undefined.
* In `Model/PointerDecomp`, functions of components and half edges that only read labels (contours, walks,
  separatrices, connections) run on the labels read from the lists; only `induce` and constructors follow iterators.
* All checks are enabled except in `Model/Checks`; the models of list nodes, machine integers, archives and of Python have no version with
  disabled checks.  `Proofs/Checks` shows that the functions of `Model/Checks` with all checks enabled are those of the other modules.

### Not modelled

How single lengths are printed (any function), the Python interface except for creating IETs, registering types of lengths, and the wrappers of `left()`, `right()`, `top()`, and `bottom()`, cereal's byte format (we model
the sequence of named values), `boost::type_erasure`,
number field arithmetic (e-antic, exact-real), GMP, the internals of PPL,
benchmarks and tests.

### Hypotheses of the theorems

* `LawfulLengths O c ε`: the contract on `Lengths`.  It is proved for `sample::Lengths<T>` with lawful arithmetic (`SLengths.lawful`) and
  for `LengthsWithConnections` around lawful lengths (`LWC.lawful`); the arithmetic is proved lawful for `int`-like integers and for
  rationals.
* `PPL.Lawful`: the decision procedures of PPL are correct.  `PPL.ideal_lawful` shows that this can be met.  For C101 also `PPLDim.Lawful`: minimized
  constraints are irredundant and affine dimensions are correct (met by `PPL.reduced` and `PPLDim.ideal`).
* `Reachable`, `DReach`, `PReachable`: states after any history of calls that return, starting from valid IETs.

### Axioms

`#print axioms` has been run on every theorem listed in MANIFEST.json: all depend on a subset of `propext`, `Classical.choice`,
`Quot.sound`.  There are no own axioms, no `sorry`, and no `native_decide`/`bv_decide`.

### Findings

Claims that one could expect but which are false for this code; each is stated as a theorem with a concrete witness:

* `swap` of dimensions is undefined or wrong for dimension ≥ 3, and `elementaryTransformation(i, i, -1)` is not injective (C33).
* A decomposition does not own its lengths: it changes those of the IET it has been created from (C46).
* The constructor does not detect different sets of labels nor negative lengths (C34).
* In Python, `iet.lengths()` is not the lengths of the IET but what they were initially (C67).
* `decompose()` with a target that cannot be satisfied does not return (C38).
* Whether `Coefficients<renf_elem_class>` throws depends on the order of the elements (C65): a rational number that lives in another number field
  than the other elements is only accepted if it is not the first one.
* `induce` can throw such an exception after it has performed all the rounds requested (`C86_changed`), although the IET remains valid.
* `decompositionStep` can throw such an exception after it has changed the component (`C87_changed`), although the decomposition remains valid.
* `SimilarityTracker::loop` compares lengths label by label although the labels of the remembered and the current IET may be in a
  different order (C23); so AUTO_SIMILAR is reported, and `decompose()` stops, for some IETs that have a saddle connection (C71), and even for
  some that have periodic points (`C23_refuted`, `C37_refuted`): `withoutPeriodicTrajectory()` can be wrong.
* The connections that are reported when `iet()` of a component is decomposed do not have the labels that they have in the original IET: the
  sources have to be translated by `separatrix()` (`C90_relabelled`).
* A subspace given by generators that are all zero forgets the number of entries of the generators and compares equal to the default
  constructed one, not to the origin given by equations (`C84_origin`).
* `boshernitzanNoSaddleConnection` needs side effects of its checks: with LIBINTERVALXT_NOCHECK it uses the wrong end points, and
  `boshernitzanNoSaddleConnection()` is always false (C81).

## Plan per property

| id | model | proof |
|----|-------|-------|
| C01 | label-level `zorichInduction` over a lawful `Lengths` | run of elementary steps (C02); each step is a first return map; first return maps compose |
| C02 | the same | loop invariant "stack = prefix of bottom", floor-division law, induction on number of twists |
| C03 | state machine of all operations | invariant by induction over histories |
| C04 | `zorichInduction` | final comparison of the loop |
| C05 | `swap` | `Maps` is symmetric in top/bottom |
| C06 | `saf`, `safCache` | translations after an elementary step; wedge is bilinear and alternating; cache invariant by induction over histories |
| C07 | `reduce` | sums split, translations of the second piece do not change |
| C08 | `reduce` at label level and at node level | counters = sizes of set differences of prefixes |
| C09 | `reduce` | offsets of concatenated lists |
| C10 | threading of the length state | frame lemma: an operation on a piece only changes lengths of its own labels |
| C11–C16 | `induce` | case analysis on the loop, using C01–C09 |
| C17 | `induceLoop` | loop splits at `n`; `reduce`/cache are idempotent |
| C18 | `induce (-1)` with fuel | total length in units decreases in every iteration: explicit fuel bound |
| C19 | | points outside the sub-interval leave it in one step |
| C20 | `boshernitzanNoPeriodicTrajectory`, LP parameter | a periodic orbit gives a relation between translations |
| C21 | `boshernitzanNoSaddleConnection` | an orbit between end points gives a relation |
| C22 | `saf0` shortcut | Gordan's alternative + contraction of the SAF invariant |
| C23 | `SimilarityTracker` | the code compares lengths label-wise and the permutation position-wise: partial theorem if the labels are in the same order, or only labels of the same length have been exchanged (`IET.Aligned`, `Proofs/Rename`, `Proofs/Similar`: a return map that is similar to the map itself scales periods down forever), with the Arnoux–Yoccoz IET over ℤ[α], α+α²+α³=1 (`ExamplesCubic`) as instance; refuted otherwise: an exchange of eight intervals over ℤ[λ], λ³=3λ²+λ−1 (`ExamplesTotallyReal`), that has periodic points although AUTO_SIMILAR is reported (`Props/SimilarRefuted`) |
| C24 | `operator==`, `equivalent` | list equalities |
| C25 | sequence of saved values | round trip |
| C26 | `sample::Lengths` | arithmetic |
| C27 | the functors | arithmetic of `Int.ediv`/`tdiv` |
| C28 | machine-integer version of sample lengths | the contract holds within the invariant "total ≤ max", so that all other theorems apply; agreement with unbounded integers by C42 |
| C29 | `render` | digits in base 52 |
| C30 | `only`, `forget`, `similar` | lists |
| C31,C32 | `RationalAffineSubspace` over a PPL parameter | scaling arguments |
| C33 | `SwapDimensions` | false for dimension ≥ 3 as written: negation proved, partial theorem in dimension 2 |
| C34 | constructor at node level | nested loops find the unique partner |
| C35–C43, C47–C50 | decomposition state machine | invariants by induction over histories; for C37 the invariant also records how a component was recognized, partial if AUTO_SIMILAR was reported for a component that was not aligned with the remembered state, as in C23 (`Props/SelfSimilar`), for which the claim is refuted (`Props/SimilarRefuted`) |
| C44,C45 | half edges, separatrices, connections | lists |
| C46 | shared lengths in the constructor | false as written: negation with witness |
| C51 | Boshernitzan's criterion in `induce`/`decompositionStep` | Gordan's alternative in the other direction |
| C52 | `induceLoop` | the loop is an iteration of a deterministic round on abstract IETs |
| C53 | separatrices | invariant: chains of connections and separatrices at the half edges |
| C54 | `induceLoop` | potential function: sum over labels of the logarithms of the multiplicities |
| C55 | `Model/Pointer` | simulation: functions on nodes and functions on labels have related outcomes |
| C56 | two states with the same labels and lengths | simulation ignoring caches, trackers and orientation; used for C25 |
| C57 | creating and decomposing a decomposition | outcomes of every call from the invariant of reachable decompositions |
| C58 | SAF of a decomposition | elementary steps and merges keep it, cuts add; field `saf` of the invariant of reachable decompositions |
| C59 | itineraries of components | words of elementary steps composed along the history; each tower is counted once per visit |
| C60 | closed perimeters | `Closed` (Proofs/Corner.lean) relates the ends of consecutive half edges; kept by induction, cuts and merges; field `closed` of the invariant |
| C61 | equivalents of connections | the loop is a rotation of the new perimeter (separating) or runs around the left corner before the merge |
| C62 | histories with `inject()` | lengths with connections are parametric in the connections (`Proofs/Parametric`, `Proofs/Inject`); the stored connections are tracked separately (`Proofs/Stored`) |
| C63 | bases chosen per call of `coefficients()` | the SAF invariant vanishes in one basis iff it does in another; the Boshernitzan systems have the same solutions; the similarity tracker behaves differently only for commensurable lengths, where it never reports (`Proofs/Basis`, `Proofs/Rebase`, `Proofs/RebaseDecomp`) |
| C64 | other types and scales | `NumberMap` in `SpecNumbers`: functions of the model commute with a map of numbers (`Proofs/Numbers`); the image has other coordinates (C63) and is implemented by other lengths (C42); composed in `Proofs/NumbersSim` and, for decompositions, `Proofs/NumbersDecomp` |
| C65 | coefficients of elements of number fields and modules | the loop finds the only possible common parent; coordinates over the powers of its generator; for modules the generators of all elements (`Proofs/FieldCoefficients`) |
| C66 | printing | each text is read from left to right: names consist of letters and end at a character that is no letter; joined texts are read one after the other (`Proofs/Print`) |
| C67 | IETs created from Python | outcome of the constructor (C34); no object refers to the lengths kept for Python (C47) |
| C68 | two rational coordinates | an endless Rauzy path shrinks the intervals to zero (`Proofs/Shrink`), so there are no orbits between end points (`Proofs/Keane`); the lengths span a lattice in the plane, and along all orbits of its points the second coordinate drifts in the same direction (`Proofs/Levels`, `Proofs/Lattice`, `Proofs/Direction`), so all translations of a short return map have a coordinate of the same sign (`Proofs/RankTwo`), which is Boshernitzan's criterion; rounds and loops in `Proofs/Settle` |
| C69 | independent lengths | a relation between translations is a relation between lengths, so it holds for all lengths, in particular for the suspension data index in top − index in bottom, for which all translations are positive (`Proofs/Independent`); independence and irreducibility survive Rauzy steps; for components, count the dimension of the span of all lengths (`Props/Independent`) |
| C70 | renaming labels | a logical relation between runs with different names: every definition of the model is parametric in the labels except for tests of equality, which agree since the relation is one-to-one (`Proofs/Relabel`, `Proofs/RelabelDecomp`) |
| C71 | induction after AUTO_SIMILAR | elementary steps do the same on proportional lengths and are deterministic, so a loop never reaches a connection (`Proofs/Renormalize`, `Proofs/Rename`); without alignment refuted by an exchange of seven intervals over ℤ[√13] (`ExamplesQuadratic`), found by a search outside of Lean and checked by the kernel |
| C72 | independence of the way to decompose | elementary induction steps, splits at the first cut and removals of connections form a rewriting system on multisets of transformations; it is shown to be confluent (`Proofs/Confluence`), and every call of `decompositionStep` is a sequence of such rewritings; transformations with one interval are final and those without periodic points never produce one |
| C73 | completeness | rounds of induction that never stop and that are irreducible again and again shrink all lengths (`Proofs/Shrink`), which is impossible when there is an orbit between end points (`Proofs/Keane`); a periodic point implies such an orbit; lengths must be Archimedean, their rank does not matter. When AUTO_SIMILAR is reported without a round of induction then the tracker's time to live decreases, so this cannot go on forever |
| C74 | uniqueness | Rauzy induction neither destroys (`Proofs/Keane`) nor creates (`Proofs/Unique`) orbits between end points; where a transformation is split or merged there is such an orbit of length zero. So only Rauzy induction can happen to complete decompositions and, by confluence (C72), any two of them have a common descendant. Complete is stated by orbits of end points (`AIET.HasConnection`), not by flags or results |
| C75 | minimality | Keane's theorem, by induction: without orbits between end points Rauzy induction never ends, all lengths shrink and all intervals win again and again (C73), so the towers over the intervals get thin and eventually all of them pass through all the intervals (`Proofs/Minimal`). Minimal is stated by orbits of all points in any Archimedean ordered ring that contains the lengths (`Verif/SpecMinimal.lean`) |
| C76 | `induce()` without a limit | The loop with the `int` counter is compared with the loop with fuel `2 ^ 31`. Connections become visible at the left end only, `reduce()` is called after the loop: the left part of a reducible IET evolves on its own (`IsCut.rauzyStep`), so when it has no connection then the loop does not end |
| C77 | cylinders and itineraries | The right end of every component is the right end of the IET or gets to the right end of a top interval, so points on both sides of it have different itineraries (`Track.ends`). Hence points with the same periodic itinerary stay together, and a component with a single interval is a maximal interval of points with the same itinerary (`Proofs/Itinerary`). This describes cylinders in terms of the map alone, so the lengths of cylinders are the same for the inverse (`swap()`), although their labels are not (`two_swapped`) |
| C78 | saddle connections | The end points of a component are the first points in its interior on the orbits of end points of the original IET, and these orbits only go through the interior of intervals (`Track.primBot`, `Track.primTop`, `Proofs/Primitive`). So what is reported is a saddle connection, and one that has not been reported would be one of a component (`Proofs/Saddle`) |
| C79 | components and orbits | A component that is minimal is in any component of another decomposition that it meets, since that contains a small interval and all orbits get there; for cylinders use C77 (`Proofs/Partition`). Orbits that meet a component forwards also meet it backwards, so this extends to the inverse |
| C80 | functions with disabled checks | refinement: with less checks, the outcome is the same unless a check failed (`Ref` in `Proofs/Checks`); by C15, C21, C44, C45, C50, C53 and C57 no check ever fails |
| C81 | `boshernitzanNoSaddleConnection` | the same with checks of arguments; without these the code solves the linear program for the left end points (`saddleTest_spec`), refuted by an exchange of three intervals over ℤ[√2] |
| C82 | `isSet` | lists of characters |
| C83 | `Model/PointerDecomp` | simulation as for C55 (`Proofs/PointerDecomp`); components never use nodes of earlier IETs |
| C84 | `Model/Generators` | spans as submodules of `Fin n → ℚ`; every span is the solution set of integer equations, so the specification of the PPL can be met |
| C85 | `Model/Lifetime` | reference counts are the number of owners, counting temporaries (`Inv`); ownership has no cycles |
| C86 | `Model/Exceptions` | the functions with the state they leave behind when they throw; without that state they are the functions of `Model/IET`; comparison with coefficients that never throw (`completion`), for which C63 applies |
| C87 | `Model/ExceptionsDecomp` | a decomposition after exceptions looks like one with exact coefficients (`Like`) that satisfies the invariant of C35–C41, although that one need not be reachable by steps that return; the invariant survives interrupted steps because only rounds of induction have been performed |
| C88 | the rewriting system of C72 | every elementary step, split and removal of a connection preserves the subgroup generated by the lengths; for calls, by induction over the histories of C03 |
| C89 | `Decomp.iet`, the rewriting system of C72 | `iet()` is the same transformation, so that separate decompositions are further rewriting steps; confluence (C72, C74) does the rest |
| C90 | `Decomp.separatrix`, `Decomp.iet`, `Track` with the orbit of the left end of each piece | the end points of a piece are on orbits of end points of the original IET through interiors (`Track.primBot`, `primTop`), and orbits through the left end of a piece have just left or soon reach an end point (`Track.starts`), so inner orbits of the piece and of the original IET correspond; refutation for untranslated labels by a concrete run |
| C91 | no new definitions of the code; `IET.crossing`, `IET.genus` are the specification | elementary steps are congruences of the matrix of crossings, removing a connection is a congruence followed by removing a row and a column, splitting gives blocks; alternating matrices have even rank; a component whose first labels differ has rank at least two (`Proofs/Genus`) |
| C92 | `Model/Registrar`: `LengthRegistrar` and `Lengths()` in Python, with a log of the calls of cppyy | invariant of all sessions; the order in which a set is visited is any permutation |
| C93 | `SpecVertex`: the ends of the intervals up to gluing; `IET.singularities`, `IET.genus` | the kernel of the matrix of crossings consists of the differences of functions on the vertices; dimension formula |
| C94 | `Model/Erased`: polymorphic wrappers around type-erased lengths in an archive | induction on the list; the names that have been read are those that have been written |
| C95 | `SpecVisits`: itineraries (`Towers`), the matrix of visits, the matrix of crossings | each elementary step is a transvection; products for sequences of calls |
| C96 | `SpecVisits` (`Unwinds`), `AIET.Irreducible` | every interval wins and loses infinitely often; the intervals that visit a given one grow until they are all intervals |
| C97 | `Model/PythonViews`, boundary of components (C50), names of labels (C29) | explicit form of `left()` and `right()`; invariant of the tracked connections; no call creates a label |
| C98 | `Model/Lifetime` with moves and assignments | invariant of C85; a move permutes the `shared_ptr`s of variables |
| C99 | `SpecVisits` (`Unwinds`), `AIET.Irreducible` | C96 again and again: the product of `k` positive matrices has large entries |
| C100 | `Model/Archive`; `AnyIET.Saveable` in Props/Archive | C25 and C94 together: what the reader knows is what the writer has written |
| C101 | `Model/Codimension` | irredundant equations are linearly independent; rank and nullity (Mathlib) |
| C102 | exchanges of two intervals, `Proofs/Rotation` | a relation between the translations is a relation between the two lengths; then every orbit closes up after as many steps as the relation says |
| C103 | exchanges of two intervals of integer length | the genus (C91) leaves room for one component, the group of lengths (C88) determines its width; arithmetic of rotations for the period |
| C104 | exchanges of two intervals with any lengths | rational ratio: C39 with a unit from Bézout, C88 for the width; irrational ratio: no integer relation, so C69 |
| C105 | `sample::Lengths::make` and labels that are not from these lengths | unfolding the model; C34 for the constructor |
| C106 | irreducible exchanges of three intervals | translations are combinations of two numbers; C22 and C20; pigeonhole principle |
| C107 | IETs with at most three intervals | with a periodic point the rounds of induction end (C73); otherwise there is no relation between the translations (C106) |
| C108 | IETs with at most three intervals and without periodic points | C36 and C106 for all components; no component has vanishing SAF invariant so nothing overflows |
| C109 | completely periodic IETs | every component has a periodic point so that its rounds of induction end (C73); C37 without AUTO_SIMILAR |
| C110 | self-similarity with at most three intervals | induction on the left does not change the last labels, so labels are not exchanged between similar states or all lengths are commensurable (`Proofs/FewLoop`); AUTO_SIMILAR is never reported; C37 without restriction |
| C111 | exactness of `decompose()` with at most three intervals | combines C36, C38, C109 and C110 (`Props/FewExact`); `C111_exact` is for any number of intervals but needs that AUTO_SIMILAR has not been reported: cylinders are exactly the components with periodic points, whenever the call returns true; that it does return true is C107 |
| C112 | uniqueness of cylinders with at most three intervals | C111 gives the hypothesis of C72 and C77 that every component is settled (`Props/FewUnique`) |
| C113 | minimality with at most three intervals | a complete decomposition (C74) has a single component since there is no room for a second one without periodic points; its orbits are dense (C75), hence also those of the IET and of its inverse (`Props/FewDense`) |
