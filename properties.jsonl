{"id": "C01", "title": "zorichInduction() replaces the map by a first return map", "statement": "For every valid interval exchange transformation (IET) T on [0,L), calling zorichInduction() leaves an IET T' on [0,L') with 0 < L' <= L such that x -> T'(x) is, after translating by L-L', exactly the first return map of T to [L-L', L): T'(x)=y iff the first point of the T-orbit of x+(L-L') that lies in [L-L',L) is y+(L-L').", "quantifier": "every pair of permutations, every vector of positive lengths over every ordered field/ring of lengths, every point x of the domain", "why_tests_cant": "The claim is about every point of a continuum and every length vector; the test-suite only compares printed permutations for a handful of IETs.", "anchors": ["libintervalxt/src/interval_exchange_transformation.cc: IntervalExchangeTransformation::zorichInduction", "libintervalxt/intervalxt/sample/detail/lengths.ipp: Lengths::subtract, Lengths::subtractRepeated"]}
{"id": "C02", "title": "zorichInduction() is a maximal run of elementary left Rauzy steps", "statement": "The permutations and lengths after zorichInduction() are exactly those obtained by repeating the elementary step 'if the first bottom interval b is strictly shorter than the first top interval a, replace |a| by |a|-|b| and move b directly in front of a in the bottom' until it no longer applies; the number of full Dehn twists done by the accelerated code path never over- or undershoots.", "quantifier": "every valid IET not starting with the same label on top and bottom, any number of full twists", "why_tests_cant": "The number of full twists is unbounded and the boundary cases (exact divisibility, partial twist stopping exactly at a boundary) form infinite families.", "anchors": ["libintervalxt/src/interval_exchange_transformation.cc: zorichInduction", "libintervalxt/intervalxt/sample/detail/lengths.ipp: subtractRepeated"]}
{"id": "C03", "title": "Every operation preserves validity", "statement": "After any finite sequence of zorichInduction, swap, reduce and induce calls with any limits, on a valid IET (and on the extra IETs split off on the way), top() and bottom() of each resulting IET list the same labels without repetition and all their lengths are positive; the stack of the underlying Lengths is empty again.", "quantifier": "every valid IET, every finite history of API calls", "why_tests_cant": "Histories are unbounded; a test can only fix finitely many.", "anchors": ["libintervalxt/src/interval_exchange_transformation.cc: zorichInduction, swap, reduce, induce"]}
{"id": "C04", "title": "Return value of zorichInduction()", "statement": "zorichInduction() returns true if and only if afterwards the first top and the first bottom interval have equal length (in particular when they carry the same label); when it returns false the first top interval is strictly shorter than the first bottom interval.", "quantifier": "every valid IET", "why_tests_cant": "Equality is reached after arbitrarily many hidden subtractions; only a proof rules out a missed or spurious saddle connection for all lengths.", "anchors": ["libintervalxt/src/interval_exchange_transformation.cc: zorichInduction"]}
{"id": "C05", "title": "swap() inverts the map", "statement": "swap() turns the IET into the inverse transformation (T(x)=y iff swapped T(y)=x), keeps labels and lengths, toggles swapped(), and calling it twice gives back an equal IET; after any history without an explicit swap(), swapped() has its original value.", "quantifier": "every IET, every point, every history", "why_tests_cant": "A statement about all points and all histories.", "anchors": ["libintervalxt/src/interval_exchange_transformation.cc: swap, swapped, induce"]}
{"id": "C06", "title": "The SAF invariant never changes under induction and the cache is never stale", "statement": "safInvariant() always equals the SAF invariant computed from scratch for the current permutations, lengths and orientation, no matter when it was first computed (and cached), and has the same value before and after any number of zorichInduction/induce steps that do not split the IET; it changes sign under swap().", "quantifier": "every valid IET over every length type with an additive coefficient map, every history interleaving safInvariant() with mutating calls", "why_tests_cant": "The cache makes the value depend on history; the number of interleavings is infinite.", "anchors": ["libintervalxt/src/interval_exchange_transformation.cc: safInvariant, saf, swap, reduce, induce"]}
{"id": "C07", "title": "The SAF invariant is additive under reduce()", "statement": "When reduce() splits an IET, the SAF invariant of the original equals the sum of the SAF invariants of the two pieces, and the value reported by the remaining piece is its own and not the cached value of the original.", "quantifier": "every reducible valid IET, cached or not", "why_tests_cant": "Needs all IETs; a stale cache would only show for some histories.", "anchors": ["libintervalxt/src/interval_exchange_transformation.cc: reduce, saf"]}
{"id": "C08", "title": "reduce() splits off exactly at the first invariant prefix", "statement": "reduce() returns an IET if and only if some proper prefix of top() has the same set of labels as the prefix of bottom() of the same size; it then cuts at the shortest such prefix, the two pieces concatenate to the original, neither lengths nor any label is altered, and the first piece is irreducible. Otherwise top() and bottom() are unchanged.", "quantifier": "every pair of permutations of any size with any label ids", "why_tests_cant": "The implementation temporarily flips bits in label ids through twin pointers; that it restores every id for all permutations and all ids cannot be enumerated.", "anchors": ["libintervalxt/src/interval_exchange_transformation.cc: reduce", "libintervalxt/src/impl/interval.hpp: Interval"]}
{"id": "C09", "title": "reduce() splits the dynamics", "statement": "When reduce() splits T on [0,L) at a cut c, the first piece is T restricted to [0,c) and the second piece is T restricted to [c,L) translated by -c; no orbit crosses the cut.", "quantifier": "every reducible IET, every point", "why_tests_cant": "Every point of a continuum.", "anchors": ["libintervalxt/src/interval_exchange_transformation.cc: reduce"]}
{"id": "C10", "title": "IETs sharing a Lengths object do not disturb each other", "statement": "After reduce()/induce() the pieces share one Lengths object; any further history of operations on one piece leaves top(), bottom(), all lengths, the SAF invariant and hence the transformation of every other piece unchanged.", "quantifier": "every valid IET, every history of operations on one of the pieces", "why_tests_cant": "Aliasing bugs depend on the history; histories are unbounded.", "anchors": ["libintervalxt/src/interval_exchange_transformation.cc: reduce, induce, lengths", "libintervalxt/intervalxt/sample/detail/lengths.ipp: push, pop, clear"]}
{"id": "C11", "title": "induce(): CYLINDER exactly for a single interval", "statement": "induce(limit) reports CYLINDER iff the IET has exactly one interval, in which case the IET is unchanged and every point is fixed by the transformation.", "quantifier": "every valid IET, every limit", "why_tests_cant": "All IETs and limits.", "anchors": ["libintervalxt/src/interval_exchange_transformation.cc: induce", "libintervalxt/intervalxt/induction_step.hpp: InductionStep::Result"]}
{"id": "C12", "title": "induce(): SEPARATING_CONNECTION", "statement": "If induce reports SEPARATING_CONNECTION (b,t) then the IET and the additional IET together are a splitting of a first return map of the original IET; b is the last bottom label and t the last top label of the remaining IET; the additional IET is valid and non-empty and every label of the original belongs to exactly one of the two.", "quantifier": "every valid IET, every limit for which the call returns", "why_tests_cant": "Depends on an unbounded number of induction steps.", "anchors": ["libintervalxt/src/interval_exchange_transformation.cc: induce, reduce"]}
{"id": "C13", "title": "induce(): NON_SEPARATING_CONNECTION", "statement": "If induce reports NON_SEPARATING_CONNECTION (b,t) then b != t, exactly the label t has disappeared from top and bottom, all other labels survive, and the new IET is (up to translation) the first return map of the original IET to a right-hand subinterval.", "quantifier": "every valid IET, every limit for which the call returns, every point", "why_tests_cant": "Every point of a continuum and unbounded histories.", "anchors": ["libintervalxt/src/interval_exchange_transformation.cc: induce"]}
{"id": "C14", "title": "induce(): LIMIT_REACHED means nothing was missed", "statement": "If induce(limit) reports LIMIT_REACHED, then the resulting IET is irreducible, its first top and first bottom interval have different lengths, it has the same labels as before and is a first return map of the original to a right-hand subinterval; induce with an infinite limit never reports LIMIT_REACHED.", "quantifier": "every valid IET, every limit", "why_tests_cant": "All IETs and limits.", "anchors": ["libintervalxt/src/interval_exchange_transformation.cc: induce"]}
{"id": "C15", "title": "No internal error on valid input", "statement": "On a valid IET with an empty length stack, zorichInduction, reduce, swap, safInvariant and induce with any limit never hit a failing assertion, never throw, never read out of range, and (except for induce(-1) on lengths where it does not terminate) always return.", "quantifier": "every valid IET, every limit", "why_tests_cant": "Absence of a crash on infinitely many inputs.", "anchors": ["libintervalxt/src/interval_exchange_transformation.cc: zorichInduction, reduce, induce, saf", "libintervalxt/intervalxt/sample/detail/lengths.ipp: at, subtract, subtractRepeated", "libintervalxt/src/util/assert.ipp"]}
{"id": "C16", "title": "induce(0) does not advance the induction", "statement": "induce(0) never changes any length and only removes an already visible connection: if it reports LIMIT_REACHED or WITHOUT_PERIODIC_TRAJECTORY_BOSHERNITZAN then top(), bottom() and all lengths are unchanged; any negative limit other than -1 behaves like 0.", "quantifier": "every valid IET", "why_tests_cant": "All IETs.", "anchors": ["libintervalxt/src/interval_exchange_transformation.cc: induce"]}
{"id": "C17", "title": "The limit of induce() can be split", "statement": "If induce(n) reports LIMIT_REACHED then a following induce(m) reports the same result and leaves the same IET (including all caches) as a single induce(n+m) on the original would have.", "quantifier": "every valid IET, all n, m >= 0", "why_tests_cant": "Two-parameter family over all IETs and all internal tracker states.", "anchors": ["libintervalxt/src/interval_exchange_transformation.cc: induce", "libintervalxt/src/similarity_tracker.cc: loop"]}
{"id": "C18", "title": "Unlimited induction terminates on commensurable lengths", "statement": "If all lengths are integer multiples of one positive length (in particular for integer and rational lengths), induce(-1) always returns, and it reports CYLINDER, SEPARATING_CONNECTION or NON_SEPARATING_CONNECTION.", "quantifier": "every valid IET with commensurable lengths", "why_tests_cant": "Termination over infinitely many inputs.", "anchors": ["libintervalxt/src/interval_exchange_transformation.cc: induce"]}
{"id": "C19", "title": "Periodic trajectories are preserved by induction", "statement": "The IET before zorichInduction (or an induction step that ends with LIMIT_REACHED or NON_SEPARATING_CONNECTION) has a periodic point if and only if the IET afterwards does; for SEPARATING_CONNECTION iff one of the two pieces does.", "quantifier": "every valid IET, every limit for which the call returns", "why_tests_cant": "Quantifies over all points and all orbit lengths.", "anchors": ["libintervalxt/src/interval_exchange_transformation.cc: zorichInduction, induce, reduce"]}
{"id": "C20", "title": "Boshernitzan criterion is sound: no periodic trajectory", "statement": "If boshernitzanNoPeriodicTrajectory() returns true (or induce reports WITHOUT_PERIODIC_TRAJECTORY_BOSHERNITZAN) then the IET (and the IET induce was called on) has no periodic point of any period.", "quantifier": "every valid IET over every length type with an additive coefficient map, every point, every period", "why_tests_cant": "No test can examine all orbits of all points.", "anchors": ["libintervalxt/src/interval_exchange_transformation.cc: boshernitzanNoPeriodicTrajectory, boshernitzanEquations, translations", "libintervalxt/src/rational_affine_subspace.cc: hasNonZeroNonNegativeVector"]}
{"id": "C21", "title": "Boshernitzan criterion is sound: no saddle connection", "statement": "If boshernitzanNoSaddleConnection(t,b) returns true then no forward orbit of the right end point of the bottom interval b ever hits the right end point of the top interval t; if boshernitzanNoSaddleConnection() returns true then the IET satisfies Keane's condition for all its inner singularities.", "quantifier": "every valid IET, every pair of labels other than the last ones, every orbit length", "why_tests_cant": "Unbounded orbit length.", "anchors": ["libintervalxt/src/interval_exchange_transformation.cc: boshernitzanNoSaddleConnection, boshernitzanSaddleConnectionValues"]}
{"id": "C22", "title": "The SAF=0 shortcut loses nothing", "statement": "When the SAF invariant vanishes, the linear-programming test behind boshernitzanNoPeriodicTrajectory() would have answered 'no conclusion' anyway: there always is a non-zero non-negative rational vector orthogonal to the translations. So the early return never changes the answer.", "quantifier": "every valid IET of size at least 2 with SAF=0 whose coefficients embed the lengths", "why_tests_cant": "A statement about all real-algebraic length vectors; the source only cites an issue.", "anchors": ["libintervalxt/src/interval_exchange_transformation.cc: boshernitzanNoPeriodicTrajectory, saf0", "libintervalxt/src/component.cc: boshernitzanCost"]}
{"id": "C23", "title": "WITHOUT_PERIODIC_TRAJECTORY_AUTO_SIMILAR is sound", "statement": "If induce reports WITHOUT_PERIODIC_TRAJECTORY_AUTO_SIMILAR then the IET has no periodic point.", "quantifier": "every valid IET, every limit, every tracker history", "why_tests_cant": "All orbits of all points; the tracker state depends on the full history.", "anchors": ["libintervalxt/src/similarity_tracker.cc: SimilarityTracker::loop, reset", "libintervalxt/src/interval_exchange_transformation.cc: induce", "libintervalxt/intervalxt/sample/detail/lengths.ipp: similar, only, forget"]}
{"id": "C24", "title": "operator== and equivalent()", "statement": "operator== on IETs holds iff top(), bottom() and the lengths of all intervals agree and is an equivalence relation ignoring orientation flag and caches; equivalent() holds iff the IETs agree up to a renaming of labels (same combinatorics and the same lengths position by position), and then both compute the same transformation on every point.", "quantifier": "every pair of valid IETs, every point", "why_tests_cant": "All pairs of IETs, all points.", "anchors": ["libintervalxt/src/interval_exchange_transformation.cc: operator==, equivalent"]}
{"id": "C25", "title": "Serialization round trip", "statement": "Saving any IETs to an archive and loading them gives IETs equal to the originals (operator==) which share their lengths exactly if the originals did and share nothing with other objects, with the same SAF invariant and the same answer to every subsequent call on the label level; the only exception is that WITHOUT_PERIODIC_TRAJECTORY_AUTO_SIMILAR might be reported at another time since the similarity tracker is not saved. swapped() is not part of the saved state and is always false after loading.", "quantifier": "every valid IET in every state", "why_tests_cant": "All IETs.", "anchors": ["libintervalxt/intervalxt/cereal.hpp: save, load", "libintervalxt/intervalxt/sample/cereal.hpp"]}
{"id": "C26", "title": "Lengths::subtractRepeated contract", "statement": "With labels l1..ln on the stack whose lengths sum to S < |from|, subtractRepeated(from) leaves every other length unchanged, makes |from| equal to |from| - k*S - (|l1|+...+|lj|) with k >= 1 and 0 <= j < n such that the result is positive and at most |l_{j+1}|, returns l_j (or l_n if j=0), and empties the stack. It throws exactly when the stack is empty.", "quantifier": "every vector of positive lengths, every stack of distinct labels not containing the minuend", "why_tests_cant": "All quotients k including exact divisibility.", "anchors": ["libintervalxt/intervalxt/sample/detail/lengths.ipp: subtractRepeated, subtract, push, pop, cmp", "libintervalxt/intervalxt/lengths.hpp: Lengths"]}
{"id": "C27", "title": "Floor division of the sample length types", "statement": "For int, mpz and mpq lengths x >= 0, d > 0 the floor division used by subtractRepeated returns the integer q with q*d <= x < (q+1)*d.", "quantifier": "every pair of non-negative dividend and positive divisor", "why_tests_cant": "Infinite domain, in particular for rationals with different denominators.", "anchors": ["libintervalxt/intervalxt/sample/integer_floor_division.hpp", "libintervalxt/intervalxt/sample/mpq_floor_division.hpp", "libintervalxt/intervalxt/sample/mpz_floor_division.hpp"]}
{"id": "C28", "title": "No overflow with machine integers", "statement": "If the lengths are machine integers whose total fits into the type, then no history of induction operations overflows: every intermediate value computed by the induction stays between 0 and the initial total.", "quantifier": "every valid IET with bounded integer lengths, every history", "why_tests_cant": "Overflow only shows for extreme inputs and long histories.", "anchors": ["libintervalxt/intervalxt/sample/detail/lengths.ipp: operator T, subtract, subtractRepeated", "libintervalxt/src/interval_exchange_transformation.cc: zorichInduction"]}
{"id": "C29", "title": "render() gives distinct names", "statement": "Two labels render to the same non-empty string of letters iff they are the same label.", "quantifier": "every pair of label ids", "why_tests_cant": "Infinite domain.", "anchors": ["libintervalxt/intervalxt/sample/detail/lengths.ipp: render", "libintervalxt/src/label.cc"]}
{"id": "C30", "title": "only(), forget() and similar()", "statement": "only(labels) keeps exactly the lengths of the given labels and sets all others to zero without modifying the original, forget() yields an independent copy with an empty stack; similar(a,b,other,aa,bb) holds for positive lengths iff |a|:|b| = |aa|:|bb|.", "quantifier": "every length vector, set of labels and pair of labels", "why_tests_cant": "Infinite domain.", "anchors": ["libintervalxt/intervalxt/sample/detail/lengths.ipp: only, forget, similar"]}
{"id": "C31", "title": "The LP decision procedures decide what they claim", "statement": "For any system of rational linear equations, hasNonNegativeVector() is true iff the system has a solution with all coordinates >= 0, hasPositiveVector() iff it has one with all coordinates > 0, and (for homogeneous systems) hasNonZeroNonNegativeVector() iff it has a non-zero solution with all coordinates >= 0; clearing denominators does not change the answer.", "quantifier": "every rational matrix and right hand side of any size", "why_tests_cant": "All systems of equations.", "anchors": ["libintervalxt/src/rational_affine_subspace.cc: linearExpressionFromVector, hasNonNegativeVector, hasPositiveVector, hasNonZeroNonNegativeVector"]}
{"id": "C32", "title": "The three strategies of hasNonZeroNonNegativeVector agree", "statement": "For every homogeneous rational system the POLYHEDRON, QUOTIENT and MIP strategies give the same answer.", "quantifier": "every rational matrix of any size", "why_tests_cant": "All matrices; the tests compare a few.", "anchors": ["libintervalxt/src/rational_affine_subspace.cc: hasNonZeroNonNegativeVector"]}
{"id": "C33", "title": "RationalAffineSubspace::swap and elementaryTransformation", "statement": "swap(i,j) exchanges coordinates i and j of every vector of the subspace and leaves all other coordinates alone; elementaryTransformation(i,j,c) is an invertible change of coordinates.", "quantifier": "every subspace, every dimension and pair of coordinates", "why_tests_cant": "All dimensions.", "anchors": ["libintervalxt/src/rational_affine_subspace.cc: SwapDimensions, swap, elementaryTransformation"]}
{"id": "C34", "title": "Construction", "statement": "Constructing an IET from duplicate-free lists with the same labels and positive lengths succeeds, top() and bottom() return the given lists and each interval is paired with the interval of the same label on the other side; lists of different sizes, duplicates, empty lists, and zero lengths are rejected by an assertion. Different labels on top and bottom (in equal number) and negative lengths are not detected; with different labels a twin is a singular iterator and a later call can be undefined behaviour.", "quantifier": "every pair of label lists and lengths", "why_tests_cant": "All lists.", "anchors": ["libintervalxt/src/interval_exchange_transformation.cc: ImplementationOf<IntervalExchangeTransformation>::ImplementationOf, top, bottom"]}
{"id": "C35", "title": "The components of a decomposition partition the labels", "statement": "In every reachable state of a DynamicalDecomposition, the components' label sets are pairwise disjoint, each component is a valid IET, labels never move to another component except when a component is split, a label disappears only through NON_SEPARATING_CONNECTION, and no component is reported as swapped.", "quantifier": "every initial IET, every history of decompositionStep calls on any components with any limits", "why_tests_cant": "Unbounded histories.", "anchors": ["libintervalxt/src/dynamical_decomposition.cc: insertComponent, components", "libintervalxt/src/component.cc: decompositionStep"]}
{"id": "C36", "title": "Components describe the original dynamics", "statement": "In every reachable state, each component is (up to translation) the first return map of the original IET to an interval, these intervals are disjoint, and the orbit of every point of the original IET meets exactly one of them. In particular the original has a periodic point iff some component has one.", "quantifier": "every initial IET, every history, every point", "why_tests_cant": "Unbounded histories and a continuum of points.", "anchors": ["libintervalxt/src/dynamical_decomposition.cc: DynamicalDecomposition, decompose", "libintervalxt/src/component.cc: decompositionStep"]}
{"id": "C37", "title": "Component flags are sound", "statement": "If cylinder() is true for a component then every point of the component is periodic with the same period under the original IET; if withoutPeriodicTrajectory() became true then no point of the component is periodic; the two are never both true.", "quantifier": "every initial IET, every history", "why_tests_cant": "All orbits of all points.", "anchors": ["libintervalxt/src/component.cc: cylinder, withoutPeriodicTrajectory, decompositionStep"]}
{"id": "C38", "title": "decompose() returning true establishes the target", "statement": "If decompose(target, limit) returns true then target held for every component of the final decomposition at the time it was checked; with the default target every component is then known to be a cylinder or without periodic trajectories.", "quantifier": "every initial IET, limit and target predicate for which the call returns", "why_tests_cant": "Recursion of unbounded depth.", "anchors": ["libintervalxt/src/component.cc: decompose", "libintervalxt/src/dynamical_decomposition.cc: decompose"]}
{"id": "C39", "title": "Commensurable lengths decompose completely into cylinders", "statement": "If all lengths are integer multiples k_a*u of one positive length u then decompose() with the default target and no limit terminates, returns true, and every component is a cylinder with a single interval (as long as n*(1 + sum of floor(log2 k_a)) does not exceed 2^31-3, so that the limit on the rounds of induction, an int, cannot overflow); and no component is ever claimed to be without periodic trajectories.", "quantifier": "every valid IET with commensurable lengths", "why_tests_cant": "Termination for infinitely many inputs.", "anchors": ["libintervalxt/src/dynamical_decomposition.cc: decompose", "libintervalxt/src/component.cc: decompose, decompositionStep"]}
{"id": "C40", "title": "Reported connections are saddle connections of the original IET", "statement": "For every connection reported by decompositionStep, the source and target separatrices belong to labels s,t of the original IET and some iterate of the original transformation maps the right end point of the bottom interval of s to the right end point of the top interval of t.", "quantifier": "every initial IET, every history, every reported connection", "why_tests_cant": "Orbits of unbounded length, unbounded histories.", "anchors": ["libintervalxt/src/component.cc: decompositionStep", "libintervalxt/src/separatrix.cc: makeAtTop, makeAtBottom"]}
{"id": "C41", "title": "Every connection is stored exactly twice, once in each direction", "statement": "In every reachable state without inject(), the connections recorded along the boundaries of all components are precisely the reported connections and their reverses, each exactly once, and the internal consistency check never fails.", "quantifier": "every initial IET, every history", "why_tests_cant": "Unbounded histories.", "anchors": ["libintervalxt/src/dynamical_decomposition.cc: check", "libintervalxt/src/component.cc: decompositionStep, registerSeparating", "libintervalxt/src/lengths_with_connections.cc: subtract"]}
{"id": "C42", "title": "Adding connection bookkeeping does not change the induction", "statement": "Running the induction through the Lengths wrapper used by decompositions gives the same results, permutations and lengths as running it on the underlying Lengths directly, for any lawful implementation of the Lengths interface.", "quantifier": "every lawful Lengths implementation, every history", "why_tests_cant": "All implementations and histories.", "anchors": ["libintervalxt/src/lengths_with_connections.cc: push, pop, subtract, subtractRepeated, cmp, get"]}
{"id": "C43", "title": "Step limits of decompositionStep are respected", "statement": "decompositionStep(limit) with limit >= 0 performs at most limit induction steps in total and reports LIMIT_REACHED only after having performed all of them; with limit -1 it never reports LIMIT_REACHED.", "quantifier": "every component state, every limit", "why_tests_cant": "All limits and states.", "anchors": ["libintervalxt/src/component.cc: decompositionStep, boshernitzanCost"]}
{"id": "C44", "title": "Half edges: next, previous, negation", "statement": "For half edges of a component, next() and previous() are mutually inverse walks along the contour in contour order (left to right for both the top and the bottom contour, which is the convention of the code), negation is an involution exchanging top and bottom, and each label contributes exactly one top and one bottom half edge.", "quantifier": "every component state, every half edge", "why_tests_cant": "All contours.", "anchors": ["libintervalxt/src/half_edge.cc: next, previous, operator-", "libintervalxt/src/component.cc: next, previous, topContour, bottomContour"]}
{"id": "C45", "title": "Equality, hashing and negation of separatrices and connections", "statement": "Equality of separatrices, connections and half edges is an equivalence relation, equal values have equal hashes, and negation of connections is an involution exchanging source and target and parallel and antiparallel.", "quantifier": "all separatrices, connections, half edges", "why_tests_cant": "Infinite domain.", "anchors": ["libintervalxt/src/separatrix.cc", "libintervalxt/src/connection.cc", "libintervalxt/src/half_edge.cc"]}
{"id": "C46", "title": "Decomposing leaves the IET it was created from alone", "statement": "The constructor of DynamicalDecomposition takes the IET by const reference; afterwards decomposing does not change the lengths observable through the original IET.", "quantifier": "every initial IET, every history", "why_tests_cant": "Aliasing through a shared pointer shows only for some histories.", "anchors": ["libintervalxt/src/dynamical_decomposition.cc: DynamicalDecomposition::DynamicalDecomposition"]}
{"id": "C47", "title": "Component::iet() is an independent snapshot", "statement": "The IET returned by Component::iet() equals the component's current IET and is not affected by later steps of the decomposition, and operations on it do not affect the decomposition.", "quantifier": "every component state, every later history", "why_tests_cant": "Unbounded later history.", "anchors": ["libintervalxt/src/component.cc: Component::iet", "libintervalxt/intervalxt/sample/detail/lengths.ipp: forget"]}
{"id": "C48", "title": "inject() inserts connections in order", "statement": "inject(at, left, right) records exactly the given connections at the given half edge, in the given order when reading the boundary, returns them in the given order and keeps all previously recorded connections.", "quantifier": "every component state, half edge and pair of lists accepted by inject", "why_tests_cant": "All lists.", "anchors": ["libintervalxt/src/component.cc: inject"]}
{"id": "C49", "title": "A decomposition has boundedly many connections and components", "statement": "Starting from n intervals, any history of decompositionStep reports at most n-1 connections, and there are never more than n components.", "quantifier": "every initial IET, every history", "why_tests_cant": "Unbounded histories.", "anchors": ["libintervalxt/src/component.cc: decompositionStep", "libintervalxt/src/dynamical_decomposition.cc: insertComponent"]}
{"id": "C50", "title": "Perimeter lists every boundary piece once", "statement": "perimeter() of a component lists each label of the component once on the bottom and once on the top in contour order together with exactly the connections stored at those half edges, without duplicates.", "quantifier": "every reachable state of a decomposition", "why_tests_cant": "Unbounded histories.", "anchors": ["libintervalxt/src/component.cc: perimeter, left, right, top, bottom, horizontal"]}
{"id": "C51", "title": "Boshernitzan's criterion is never missed", "statement": "induce and decompositionStep report LIMIT_REACHED only when the translations of the resulting IET satisfy a non-trivial linear relation with non-negative integer coefficients, i.e., when Boshernitzan's criterion cannot certify the absence of periodic points; conversely decompositionStep(0) on an irreducible component without visible connection reports WITHOUT_PERIODIC_TRAJECTORY_BOSHERNITZAN whenever there is no such relation, and changes nothing but the flags.", "quantifier": "every reachable IET or decomposition, every limit, every component", "why_tests_cant": "A completeness statement about a linear program over all inputs; a test only sees single IETs where the outcome is known.", "anchors": ["libintervalxt/src/interval_exchange_transformation.cc:125-138", "libintervalxt/src/interval_exchange_transformation.cc:260-270", "libintervalxt/src/component.cc:165-287"]}
{"id": "C52", "title": "induce(limit) performs exactly the requested rounds of Zorich induction", "statement": "If induce(limit) reports LIMIT_REACHED or WITHOUT_PERIODIC_TRAJECTORY_BOSHERNITZAN, exactly limit rounds of Zorich induction (shorten the first top interval as often as possible, then the first bottom interval) have been performed; if it reports a connection, at most limit rounds have been performed, and the IET is the one after these rounds with that connection removed; the rounds are uniquely determined by the IET.", "quantifier": "every valid IET, every limit, every history", "why_tests_cant": "The number of rounds is not observable in the result; a test only sees the IET for a few limits and cannot rule out that rounds are skipped or performed twice for other lengths.", "anchors": ["libintervalxt/src/interval_exchange_transformation.cc:198-271", "libintervalxt/src/interval_exchange_transformation.cc:79-115"]}
{"id": "C53", "title": "Every separatrix has exactly one place in the decomposition", "statement": "Every separatrix of the original IET (one at the right end of each interval on top and on the bottom except for the last ones) is either returned by HalfEdge::separatrix() for exactly one half edge of the decomposition or is the source or target of exactly one saddle connection that has been reported. The separatrix at a half edge is the one that arrives there when following the original IET, and there is none exactly at the last half edges of the contours.", "quantifier": "every initial IET, every history of decomposition steps", "why_tests_cant": "Unbounded histories of splits.", "anchors": ["libintervalxt/src/half_edge.cc: separatrix", "libintervalxt/src/separatrix.cc", "libintervalxt/src/component.cc: decompositionStep"]}
{"id": "C54", "title": "The number of rounds of induction is logarithmic in the lengths", "statement": "If the lengths of the n intervals are multiples k_a*u of one positive length u, then induce(limit) only reports LIMIT_REACHED when 2*limit <= n*(1 + sum of floor(log2 k_a)), and the loop of induce(-1) ends after at most n*(1 + sum of floor(log2 k_a))/2 + 1 iterations.", "quantifier": "every reachable IET with commensurable lengths, every limit", "why_tests_cant": "A complexity bound for infinitely many inputs.", "anchors": ["libintervalxt/src/interval_exchange_transformation.cc: induce, zorichInduction"]}
{"id": "C55", "title": "Iterators between the two lists stay valid", "statement": "In every history of calls on any number of IETs, every interval of an IET stays paired with exactly one interval of the other list with the same label, which refers back to it; no call ever follows an iterator that is singular, dangling, or refers to another IET; and the temporary changes of labels in reduce() (flipping a bit of the label) are undone, so that all calls return what they return when intervals are identified with their labels.", "quantifier": "every history of constructions and calls on several IETs", "why_tests_cant": "Dangling iterators only show up as crashes (or not at all) after particular histories of merges and splits; tests cover a few histories.", "anchors": ["libintervalxt/src/impl/interval.hpp", "libintervalxt/src/interval_exchange_transformation.cc: zorichInduction, reduce, induce, ImplementationOf<IntervalExchangeTransformation>::ImplementationOf"]}
{"id": "C56", "title": "The induction only depends on labels and lengths", "statement": "If two states look the same (same top(), bottom() and lengths) then all functions return the same and the states look the same after any calls, no matter how the states have been obtained, what is cached, whether the IETs are swapped, and how lengths are implemented. The only exception is that induce might report WITHOUT_PERIODIC_TRAJECTORY_AUTO_SIMILAR in one of the two when the SAF invariant is zero.", "quantifier": "every pair of reachable states, every history of calls, every implementation of Lengths", "why_tests_cant": "Hidden state (caches, trackers, orientation) of all histories.", "anchors": ["libintervalxt/src/interval_exchange_transformation.cc: induce, saf, safInvariant, swap, reduce", "libintervalxt/src/similarity_tracker.cc: loop"]}
{"id": "C57", "title": "Decomposing never fails", "statement": "A DynamicalDecomposition can be created from any valid IET, and decompositionStep and decompose on it, with any targets and limits and after any earlier steps, never fail an assertion, throw, or hit undefined behaviour. The only exceptions are calls without a limit: these may run forever, and the internal limit of decompositionStep may overflow but only when the SAF invariant of the component is zero.", "quantifier": "every valid IET, every lawful implementation of lengths, every sequence of steps, every component, target and limit", "why_tests_cant": "Absence of failures for all inputs, histories and targets.", "anchors": ["libintervalxt/src/component.cc: Component::decompositionStep, Component::decompose", "libintervalxt/src/dynamical_decomposition.cc: DynamicalDecomposition::DynamicalDecomposition, decompose"]}
{"id": "C58", "title": "The SAF invariant is additive over a decomposition", "statement": "In every reachable state of a decomposition the value of safInvariant() of the decomposed IET is the sum of the values of safInvariant() of the components. In particular, if every component is a cylinder then the SAF invariant of the IET is zero.", "quantifier": "every IET reachable through the API, every history of decomposition steps", "why_tests_cant": "Unbounded histories of induction, splits and merges.", "anchors": ["libintervalxt/src/interval_exchange_transformation.cc: saf, safInvariant", "libintervalxt/src/component.cc: decompositionStep"]}
{"id": "C59", "title": "Components are towers that fill the IET", "statement": "In every reachable state of a decomposition every interval of every component has an itinerary: the list of intervals of the original IET that all its points visit, in this order, until they return to the component for the first time. The length of each original interval is the sum of the lengths of the component intervals weighted with how often they visit it. In particular, when all components are cylinders, the total length of the IET is the sum over the cylinders of width times least period.", "quantifier": "every initial IET, every history of decomposition steps", "why_tests_cant": "Unbounded orbits and histories.", "anchors": ["libintervalxt/src/interval_exchange_transformation.cc: zorichInduction, reduce, induce", "libintervalxt/src/component.cc: decompositionStep"]}
{"id": "C60", "title": "Perimeters are closed contours", "statement": "In every reachable state of a decomposition, going through perimeter() of a component in order is a closed walk in the surface of the IET: each half edge or connection starts at the vertex at which the previous one ended, the last one ends where the first one started. The component is always on the left of this walk; the angle between two consecutive sides is at most a full turn, zero only between two half edges, and a full turn only between two connections.", "quantifier": "every initial IET, every history of decomposition steps, every component", "why_tests_cant": "The order in which connections are attached to half edges depends on unboundedly long histories of induction, splits and merges; tests look at a few printed perimeters.", "anchors": ["libintervalxt/src/component.cc: perimeter, left, right, horizontal, registerSeparating, decompositionStep", "libintervalxt/src/lengths_with_connections.cc: subtract"]}
{"id": "C61", "title": "The equivalent of a connection closes up with the connection", "statement": "A decomposition step reports an equivalent path exactly when it reports a connection. Going along the connection and then back along the sides of the equivalent path is a closed walk in the surface of the IET, in the sense of C60.", "quantifier": "every initial IET, every history of decomposition steps, every step", "why_tests_cant": "Same as C60; the sides that get reported depend on the whole history.", "anchors": ["libintervalxt/src/component.cc: decompositionStep, walkClockwise", "libintervalxt/intervalxt/decomposition_step.hpp: equivalent"]}
{"id": "C62", "title": "Injected connections never influence the dynamics and never get lost", "statement": "inject() may be called at any time, in between decomposition steps. Leaving out all injections, all steps return with the same results and the same components and lengths. If each list injected to the right of a half edge (other than the last one of its contour) consists of connections above each other, starting at the separatrix next to the half edge, then no later step fails: it returns, or it has no limit and does not terminate or overflows its limit. At any time the connections to the right of half edges are exactly those reported and those injected on the right; to the left there are the reverses of those reported and those injected on the left. With lists that do not start at the separatrix next to the half edge, an assertion of a later step may fail.", "quantifier": "every initial IET, every lawful lengths, every sequence of calls of decompositionStep and inject", "why_tests_cant": "The tests inject into a single IET with two intervals; the claim is about all interleavings of injections and steps, and about steps that happen arbitrarily later.", "anchors": ["libintervalxt/src/component.cc: inject, decompositionStep", "libintervalxt/src/dynamical_decomposition.cc: check", "libintervalxt/test/dynamical_decomposition.test.cc: Decomposition With Injected Connections"]}
{"id": "C63", "title": "Results do not depend on the bases that coefficients refer to", "statement": "coefficients() may return coordinates over bases that are chosen anew in every call, even of different dimensions (as happens for elements of number fields, depending on which elements are rational, and for elements of modules). As long as each call returns vectors that satisfy the same linear relations over the integers as the lengths, everything is as with one fixed basis: the same calls return, with the same results, and otherwise fail in the same way; the IETs and their lengths are the same, and so are Boshernitzan's criteria; the SAF invariant is zero with one choice if and only if it is with the other. Decompositions make the same steps and end up with the same components, connections and flags.", "quantifier": "every lawful lengths with values in an ordered ring with an injective coordinate map, every function that returns coordinates, every program", "why_tests_cant": "Each test uses one coefficient type with one basis; the claim compares all choices of bases over all programs, in particular where a basis changes between two calls on the same IET and cached SAF invariants of different sizes are used.", "anchors": ["libintervalxt/intervalxt/sample/renf_elem_coefficients.hpp: Coefficients", "libintervalxt/intervalxt/sample/element_coefficients.hpp: Coefficients", "libintervalxt/src/interval_exchange_transformation.cc: safInvariant, boshernitzanNoPeriodicTrajectory, induce", "libintervalxt/intervalxt/lengths.hpp: coefficients"]}
{"id": "C64", "title": "Results depend only on the numbers, not on their type, their scale or how lengths are stored", "statement": "The same lengths can be given as integers, as rationals, or as elements of a bigger field, with different implementations of lengths, and they can all be multiplied by the same positive number (rational or not). The same program, run with both, behaves in the same way: the same calls return and otherwise fail in the same way; IETs have the same labels and their lengths still correspond to each other; zorichInduction, reduce, induce and the Boshernitzan criteria return the same; the SAF invariant is zero for one if and only if it is for the other. Decompositions make the same steps with the same connections and end up with components that have the same labels, corresponding lengths and the same flags.", "quantifier": "every map between ordered rings that respects sums, the order and equality of quotients; every two lawful lengths with injective coordinate maps; every program", "why_tests_cant": "Templated tests run a few examples for several types but make no claim for other inputs, and none of them compares lengths with rescaled lengths whose coefficients live in another dimension.", "anchors": ["libintervalxt/intervalxt/sample/lengths.hpp: Lengths", "libintervalxt/intervalxt/sample/coefficients.hpp: Coefficients", "libintervalxt/src/interval_exchange_transformation.cc: zorichInduction, reduce, induce, safInvariant, boshernitzanNoPeriodicTrajectory", "libintervalxt/src/component.cc: decompositionStep"]}
{"id": "C65", "title": "Coefficients of numbers are coordinates over a common basis", "statement": "Coefficients<T> for integers, rational numbers, renf_elem_class and exactreal::Element returns, for any list of elements for which it does not throw, vectors of the same size which are the coordinates of the elements over numbers without rational relations. For modules, and for integers and rational numbers (int, mpz_class, mpq_class), this never fails. For number fields it returns if and only if all the irrational elements live in the same field and this is the field of the first element, unless that is the field of rational numbers; otherwise a logic error is thrown, so it depends on the order of the elements whether it returns. For lengths whose elements live in one number field (or in the rationals) coefficients() always returns coordinates, so everything is as for one fixed basis (C63).", "quantifier": "every list of elements of any number fields, every list of elements of modules whose generators have no rational relations", "why_tests_cant": "The fields, modules and elements are arbitrary; tests use a single number field and modules with few generators.", "anchors": ["libintervalxt/intervalxt/sample/renf_elem_coefficients.hpp: Coefficients", "libintervalxt/intervalxt/sample/element_coefficients.hpp: Coefficients"]}
{"id": "C66", "title": "Printing always returns and what is printed can be read off the text", "statement": "In every state that can be reached, printing the decomposition, any of its components, or any decomposition step reported so far (even much later, when the additional component has been decomposed further) returns; no empty optional is dereferenced. If labels have different names that consist of letters, as is the case for sample::Lengths, then texts are unambiguous: two IETs with the same text have the same labels on top and bottom and their lengths are printed in the same way (if the texts of lengths do not contain a bracket); components with the same text have the same perimeter; decompositions with the same text have the same number of components with the same perimeters; decomposition steps with the same text have the same result and the same connection. Induction steps have the same text if and only if they have the same result, and labels with the same text are the same.", "quantifier": "every initial IET, every lawful lengths, every history of decomposition steps, every naming of labels by different words", "why_tests_cant": "Tests compare a few printed texts; that no two different objects are printed alike and that printing never dereferences an empty optional is a claim about all histories and all pairs of objects.", "anchors": ["libintervalxt/src/separatrix.cc: operator<<", "libintervalxt/src/connection.cc: operator<<", "libintervalxt/src/half_edge.cc: operator<<", "libintervalxt/src/component.cc: operator<<", "libintervalxt/src/dynamical_decomposition.cc: operator<<", "libintervalxt/src/decomposition_step.cc: operator<<", "libintervalxt/src/interval_exchange_transformation.cc: operator<<", "libintervalxt/src/induction_step.cc: operator<<", "libintervalxt/src/label.cc: operator<<"]}
{"id": "C67", "title": "IETs created from Python are exactly the valid ones, are equal only for equal input, and remember their initial lengths", "statement": "IntervalExchangeTransformation(lengths, permutation) in Python returns if and only if there is at least one length, all lengths are positive and permutation contains each index exactly once (other than the constructor in C++, no invalid input is accepted). The IET has the given lengths on top and the permuted labels on the bottom. Two IETs created like this compare equal if and only if lengths and permutations are the same. As the IET works on a copy, iet.lengths() always has the lengths that the IET was created with, whatever is called later on any object; after an induction these are not the lengths of the IET anymore.", "quantifier": "every list of lengths, every list of integers, every sequence of calls from Python", "why_tests_cant": "The documentation tests four pairs of IETs and queries lengths only right after construction; the claim is about all inputs and all sequences of calls.", "anchors": ["pyintervalxt/src/pyintervalxt/cppyy_intervalxt.py: IntervalExchangeTransformation, Lengths", "libintervalxt/intervalxt/cppyy.hpp: IntervalExchangeTransformation"]}
{"id": "C68", "title": "Lengths in a quadratic number field decompose completely", "statement": "If the lengths have two rational coordinates which determine them (e.g., lengths in a real quadratic number field) then no component withstands decomposition forever: for every IET and every component of every state of a decomposition there is a limit from which on induce() and decompositionStep() do not report LIMIT_REACHED anymore. decompositionStep() without a limit returns, and decompose() returns true, with every component known to be a cylinder or known to have no periodic trajectories. The only exception is an overflow of the int that limits the induction, which needs a component with vanishing SAF invariant and more than 10^9 rounds of induction without a connection.", "quantifier": "every IET and every state of a decomposition over an Archimedean ordered ring of lengths with two faithful rational coordinates, every larger limit", "why_tests_cant": "That a loop without a limit returns for all quadratic lengths and all permutations is a statement about infinitely many inputs with no bound on the number of rounds; a test can only see that it returned for the lengths tried.", "anchors": ["libintervalxt/src/component.cc: decompositionStep, decompose", "libintervalxt/src/interval_exchange_transformation.cc: induce, boshernitzanNoPeriodicTrajectory", "libintervalxt/src/dynamical_decomposition.cc: decompose"]}
{"id": "C69", "title": "Lengths without a linear relation are recognised at once", "statement": "If there is no non-trivial linear relation with integer coefficients between the lengths of an irreducible IET with at least two intervals (Keane's condition then holds by Keane's theorem), and coefficients determine lengths, then boshernitzanNoPeriodicTrajectory() and boshernitzanNoSaddleConnection() (for all pairs of labels, and in total) are true; induce() reports WITHOUT_PERIODIC_TRAJECTORY_BOSHERNITZAN for every limit (and runs forever without a limit). For any IET, irreducible or not, whose lengths satisfy no relation, decompositionStep() never reports LIMIT_REACHED or NON_SEPARATING_CONNECTION, whatever the limit, and decompose() returns true with every limit, after which all components are known to be cylinders or without periodic trajectories and no interval has been lost.", "quantifier": "all reachable IETs with rationally independent lengths, all lawful lengths, all limits, all histories of decomposition steps", "why_tests_cant": "Independent lengths are the generic case; a test can only try a few such vectors, whereas completeness of the criterion for all of them is Keane's theorem about a linear program with one variable for each interval.", "anchors": ["libintervalxt/src/interval_exchange_transformation.cc: boshernitzanNoPeriodicTrajectory, boshernitzanNoSaddleConnection, induce", "libintervalxt/src/dynamical_decomposition.cc: decompose", "libintervalxt/src/component.cc: decompositionStep"]}
{"id": "C70", "title": "Labels are only names", "statement": "If an IET and its lengths are described with other labels, i.e. the lengths are given in another order (possibly with further entries that are not used) and the labels in the top and bottom permutation are replaced accordingly, then every sequence of calls (induce, zorichInduction, reduce, swap, safInvariant, the Boshernitzan criteria, decompositionStep, decompose, inject) throws the same error or succeeds in both cases, and everything that can be observed (results, reported connections, equivalent sides, components and their flags, perimeters, separatrices, neighbours of half edges) is the same up to the replacement of labels.", "quantifier": "every injective replacement of labels, every vector of non-negative lengths, every arithmetic, every pair of lists of labels (valid or not), every sequence of calls", "why_tests_cant": "Quantifies over all replacements of labels, all IETs, and all sequences of calls.", "anchors": ["libintervalxt/intervalxt/sample/detail/lengths.ipp: index, labels, get", "libintervalxt/src/label.cc", "libintervalxt/src/interval_exchange_transformation.cc", "libintervalxt/src/component.cc", "libintervalxt/src/similarity_tracker.cc"]}
{"id": "C71", "title": "After AUTO_SIMILAR the induction finds no saddle connection any more", "statement": "Once induce() has reported WITHOUT_PERIODIC_TRAJECTORY_AUTO_SIMILAR the induction repeats itself forever: no number of further calls to zorichInduction(), with the IET swapped in between as often as desired, ever reports a saddle connection; so a component for which decompose() has stopped for this reason cannot be decomposed further by induction.", "quantifier": "all reachable IETs for which AUTO_SIMILAR is reported, all sequences of zorichInduction() and swap() afterwards", "why_tests_cant": "Speaks about arbitrarily many further calls, and about every IET for which the report is made; the failure that we know needs an exchange of seven intervals with carefully chosen lengths in a quadratic field.", "anchors": ["libintervalxt/src/similarity_tracker.cc:25-60", "libintervalxt/src/interval_exchange_transformation.cc: induce, zorichInduction, swap", "libintervalxt/src/component.cc: decompositionStep"]}
{"id": "C72", "title": "The cylinders do not depend on how one decomposes", "statement": "Two DynamicalDecompositions of the same IET, each obtained by calling decompositionStep() on any components, in any order and with any limits, find the same cylinders. If each component of the second decomposition has a single interval or has no periodic points, then every component of the first decomposition with a single interval shows up in the second one as a component with the same label and the same length; if this is so for both, then the lists of cylinders (labels and lengths) agree up to their order. Performing induce() on the IET before it is decomposed produces no other cylinders.", "quantifier": "all IETs with lengths that satisfy the contract, all pairs of histories of decompositionStep() calls", "why_tests_cant": "Compares all pairs of histories; tests run a single history (decompose() with its fixed order and limits) per IET.", "anchors": ["libintervalxt/src/component.cc:165-287 (decompositionStep)", "libintervalxt/src/component.cc:444-464 (decompose)", "libintervalxt/src/dynamical_decomposition.cc", "libintervalxt/src/interval_exchange_transformation.cc: induce, reduce"]}
{"id": "C73", "title": "Every saddle connection and every cylinder is found", "statement": "If an IET has a saddle connection (the orbit of an end point between two bottom intervals hits an end point between two top intervals) or a periodic point, then there is a number N such that induce(limit) with limit >= N reports neither LIMIT_REACHED nor WITHOUT_PERIODIC_TRAJECTORY_BOSHERNITZAN; so if such results persist for larger and larger limits, the IET has neither. The same holds for decompositionStep(limit) on a component (there, Boshernitzan's criterion can only apply when there are no periodic points), and decompositionStep() without a limit returns on such a component unless an int overflows. Every state of a DynamicalDecomposition can be continued by finitely many decompositionStep(limit) calls until every component has a single interval or no periodic points, even if AUTO_SIMILAR was reported in between; hence there is one list of cylinders (labels and lengths) that every decomposition has a part of and that every decomposition can be continued to.", "quantifier": "all IETs with real lengths of any rank, all histories of decompositionStep() calls, all limits beyond N", "why_tests_cant": "Completeness of an induction that has no a priori bound on the number of rounds; tests cannot tell LIMIT_REACHED for a small limit from a connection that is never found.", "anchors": ["libintervalxt/src/interval_exchange_transformation.cc: induce, zorichInduction, reduce", "libintervalxt/src/component.cc:165-287 (decompositionStep)", "libintervalxt/src/similarity_tracker.cc:25-53 (loop)"]}
{"id": "C74", "title": "A complete decomposition can always be reached and is unique", "statement": "Call a DynamicalDecomposition complete when no component has a saddle connection. From every state one can get to a complete decomposition by finitely many decompositionStep(limit) calls. Any two complete decompositions of the same IET, whatever the order of the steps and the limits, correspond to each other component by component: corresponding components have the same labels and the same SAF invariant and become the same after further Rauzy induction; they have the same cylinders with the same lengths, and were found with the same number of separating and of non-separating connections. No decomposition reports more connections than that, a decomposition is complete if and only if it has reported that many, and from then on no further connection is ever reported.", "quantifier": "all IETs with real lengths of any rank, all histories of decompositionStep() calls with all limits on all components", "why_tests_cant": "Uniqueness is about all pairs of histories; a test compares a few schedules on a few surfaces.", "anchors": ["libintervalxt/src/component.cc:165-287 (decompositionStep)", "libintervalxt/src/interval_exchange_transformation.cc: induce, reduce", "libintervalxt/src/dynamical_decomposition.cc: components, decompose"]}
{"id": "C75", "title": "A complete decomposition consists of cylinders and minimal components", "statement": "When boshernitzanNoSaddleConnection() is true, or when induce() keeps reporting LIMIT_REACHED (or WITHOUT_PERIODIC_TRAJECTORY_BOSHERNITZAN) for larger and larger limits, then the forward and the backward orbit of every point visits every open interval; in particular there are no periodic points. In a decomposition, every component without saddle connections has a single interval or has this property. From every state one can get to such a decomposition by finitely many steps with limits. When the decomposition is complete then every orbit of the original IET meets exactly one of the components; it is periodic when this component has a single interval, and otherwise it gets arbitrarily close to all the points whose orbits meet the same component.", "quantifier": "all IETs with real lengths of any rank, all points (not just those with coordinates in the ring of lengths), all histories of decompositionStep() calls", "why_tests_cant": "Density of orbits is a statement about infinitely many iterations of uncountably many points.", "anchors": ["libintervalxt/src/interval_exchange_transformation.cc: boshernitzanNoSaddleConnection, induce", "libintervalxt/src/component.cc:165-287 (decompositionStep)", "libintervalxt/intervalxt/component.hpp: keane, cylinder, withoutPeriodicTrajectory"]}
{"id": "C76", "title": "induce() without a limit overflows its counter unless a connection shows up at the left end", "statement": "induce(limit) for a limit other than -1 is not affected by the range of its int counter. induce(-1) returns what it would return with an unbounded counter or its counter overflows, which is undefined behaviour. When the SAF invariant is not zero the overflow happens if and only if no saddle connection becomes visible in 2^31 rounds of Zorich induction. It happens for all IETs with at least two intervals, SAF invariant not zero, and no saddle connection. It also happens when the IET is reducible and there is no connection inside of its left part: then induce(limit) reports SEPARATING_CONNECTION for every other limit, even 0, but induce(-1) does not find that connection.", "quantifier": "all reachable IETs, all limits in the range of int, all numbers of rounds", "why_tests_cant": "A test that runs 2^31 rounds of induction does not finish in reasonable time, and the outcome of an overflow cannot be tested.", "anchors": ["libintervalxt/src/interval_exchange_transformation.cc:198-271 (induce), line 210 (the counter)", "libintervalxt/intervalxt/interval_exchange_transformation.hpp: induce(int limit = -1)"]}
{"id": "C77", "title": "Cylinders are the sets of points with a given periodic itinerary", "statement": "In every state of a decomposition, two periodic points of the original IET whose orbits visit the same intervals in the same order belong to the same component, and a component with a single interval consists of exactly the points that have the same periodic itinerary as any one of its points. Once every component has a single interval or no periodic points, the periodic points of the original IET are exactly the points whose orbits get to a component with a single interval. The number of cylinders of each length is then the same for the decomposition of the IET and for the decomposition of its inverse, i.e., of the IET after swap(), although the labels of these cylinders may differ.", "quantifier": "all IETs with positive lengths, all sequences of decomposition steps with any limits on any components, all points", "why_tests_cant": "Speaks about all points, also those with coordinates that are not in the ring of lengths, and about all ways to decompose an IET and its inverse.", "anchors": ["libintervalxt/src/dynamical_decomposition.cc (constructor)", "libintervalxt/src/component.cc (decompositionStep)", "libintervalxt/src/interval_exchange_transformation.cc (swap, reduce, induce)"]}
{"id": "C78", "title": "A complete decomposition reports exactly the saddle connections", "statement": "Every connection that is reported by decompositionStep() is a saddle connection of the original IET: the orbit of the right end point of the bottom interval of its source gets to the right end point of the top interval of its target, and all the points before are in the interior of intervals. No connection is reported twice. When no component has a saddle connection anymore, then all saddle connections of the original IET have been reported. So any two complete decompositions report the same connections, and a complete decomposition of the IET after swap() reports the same connections with sources and targets exchanged.", "quantifier": "all IETs with positive lengths, all sequences of decomposition steps with any limits on any components", "why_tests_cant": "Orbits between end points can be arbitrarily long, and there are infinitely many IETs and ways to decompose them.", "anchors": ["libintervalxt/src/component.cc (decompositionStep)", "libintervalxt/src/decomposition_step.cc", "libintervalxt/src/dynamical_decomposition.cc", "libintervalxt/src/lengths_with_connections.cc (subtract)"]}
{"id": "C79", "title": "The components of a complete decomposition are determined by the dynamics", "statement": "When two decompositions of an IET are complete, then each component of the first one corresponds to a component of the second one which is met by the same orbits, and cylinders correspond to cylinders. This is also true for a complete decomposition of the IET after swap(), i.e., of the inverse transformation. In particular, decompositions of an IET and of its inverse have the same number of components and report the same number of separating and of non-separating connections.", "quantifier": "all IETs with positive lengths in an archimedean ring, all sequences of decomposition steps with any limits on any components, all points", "why_tests_cant": "Speaks about all orbits, most of which are infinite, and about all ways to decompose an IET and its inverse.", "anchors": ["libintervalxt/src/dynamical_decomposition.cc (constructor)", "libintervalxt/src/component.cc (decompositionStep)", "libintervalxt/src/interval_exchange_transformation.cc (swap, reduce, induce)"]}
{"id": "C80", "title": "Disabling checks does not change results", "statement": "Compiling with NDEBUG and setting LIBINTERVALXT_NOASSERT or LIBINTERVALXT_NOCHECK, in any combination, changes neither what the calls on valid IETs and their decompositions return nor what these calls do to IETs, lengths and decompositions; boshernitzanNoSaddleConnection() is the subject of C81. This applies to swap(), zorichInduction(), reduce(), induce(), safInvariant(), boshernitzanNoPeriodicTrajectory(), to the constructor of decompositions, decompositionStep(), decompose(), and to everything that can be read from components and half edges. Only when the internal limit of a call without limit overflows, which is undefined behaviour anyway, nothing is claimed. The constructor of IETs accepts any labels once assertions are disabled.", "quantifier": "all combinations of NDEBUG and values of the environment variables, all histories of calls on IETs with valid lengths, all histories of decompositions", "why_tests_cant": "A test suite is run with one setting; that no check ever fails or has a needed side effect is a statement about all histories.", "anchors": ["libintervalxt/src/util/assert.ipp", "libintervalxt/src/interval_exchange_transformation.cc", "libintervalxt/src/component.cc", "libintervalxt/src/dynamical_decomposition.cc", "libintervalxt/intervalxt/sample/detail/lengths.ipp"]}
{"id": "C81", "title": "boshernitzanNoSaddleConnection does not depend on the checks", "statement": "What boshernitzanNoSaddleConnection(), with and without labels, returns does not depend on NDEBUG, LIBINTERVALXT_NOASSERT and LIBINTERVALXT_NOCHECK.", "quantifier": "all combinations of NDEBUG and values of the environment variables, all IETs with positive lengths, all labels that are not last", "why_tests_cant": "The checks contain side effects that the computation needs; tests are run with checks enabled.", "anchors": ["libintervalxt/src/interval_exchange_transformation.cc (boshernitzanNoSaddleConnection, lines 175-200)", "libintervalxt/src/util/assert.ipp"]}
{"id": "C82", "title": "Environment variables that disable checks", "statement": "LIBINTERVALXT_NOCHECK disables the checks of arguments and all assertions, LIBINTERVALXT_NOASSERT and NDEBUG only the assertions. A variable is ignored exactly if it is not defined or if its value is 0, no or false in any case, possibly with white space around it; all other values, also the empty one, count as set.", "quantifier": "all values of the variables", "why_tests_cant": "There are infinitely many values, and they are read only once per process.", "anchors": ["libintervalxt/src/util/assert.ipp"]}
{"id": "C83", "title": "Decompositions never use invalid iterators", "statement": "Create a DynamicalDecomposition from an IET (after any calls on any IETs), then call decompositionStep() on components, decompose(), and inject() at half edges, in any order. No call follows an invalid iterator between the list nodes of the components: each call returns or fails exactly as the same computation on lists of labels, so a step with a limit always returns. At any time the top and bottom intervals of each component are paired by their iterators, no two components share a list node, and no component shares a node with an IET that existed before. The lists of intervals of the IET that has been decomposed and of all other IETs are unchanged (their lengths may have changed, see C46).", "quantifier": "all histories of IETs, all decompositions of them, all sequences of calls with any limits and targets", "why_tests_cant": "Dangling iterators do not necessarily crash, and which nodes are erased, moved, or created depends on the entire history of the decomposition.", "anchors": ["libintervalxt/src/component.cc", "libintervalxt/src/dynamical_decomposition.cc", "libintervalxt/src/interval_exchange_transformation.cc", "libintervalxt/src/impl/decomposition_state.hpp"]}
{"id": "C84", "title": "Subspaces from generators, comparison of subspaces", "statement": "RationalAffineSubspace(generators) can be constructed from any rational vectors with n entries. hasNonNegativeVector(), hasPositiveVector() and hasNonZeroNonNegativeVector() then decide whether the rational span of the generators contains such a vector, and the three strategies of the latter agree. Two subspaces given by generators with n entries compare equal iff the generators have the same span, two subspaces given by equations in n unknowns compare equal iff the equations have the same solutions. A subspace given by generators and one given by equations compare equal iff they have the same points and some generator is not zero: for generators that are all zero, the number of entries is forgotten, so the origin does not compare equal to itself when one is given by generators and the other by equations; it compares equal to a default constructed subspace instead.", "quantifier": "all lists of rational generators and equations with the same number n > 0 of entries", "why_tests_cant": "Tests construct a few subspaces of small dimension.", "anchors": ["libintervalxt/src/rational_affine_subspace.cc:59-94", "libintervalxt/src/rational_affine_subspace.cc:210-212", "libintervalxt/src/impl/rational_affine_subspace.hpp"]}
{"id": "C85", "title": "Handles keep everything alive that they need, nothing leaks", "statement": "Create lengths, IETs, decompositions, components, half edges, separatrices and connections, split IETs and components, take component.iet() and iet.lengths(), and destroy any of these variables in any order. No call follows a pointer to an object that has been destroyed: an IET may be destroyed while it is being decomposed, a decomposition may be destroyed before its components or connections, and the weak pointer from the lengths of a component to the decomposition is never null when it is dereferenced. Pointers to components stay valid when components are added. At any time exactly those shared objects exist that can be reached from some variable through shared pointers; when all variables have been destroyed, nothing is left.", "quantifier": "all programs, i.e., all sequences of such calls, in any order of destruction", "why_tests_cant": "Use of destroyed objects does not necessarily crash, leaks are invisible, and there are infinitely many orders in which variables can be destroyed.", "anchors": ["libintervalxt/src/impl/lengths_with_connections.hpp:56-61", "libintervalxt/src/lengths_with_connections.cc:55-79", "libintervalxt/src/dynamical_decomposition.cc:45-85", "libintervalxt/src/impl/implementation_of_decomposition.hpp", "libintervalxt/src/impl/decomposition_state.hpp", "libintervalxt/src/component.cc:466-469", "libintervalxt/intervalxt/shared.hpp"]}
{"id": "C86", "title": "Exceptions thrown by coefficients() leave IETs in a valid state", "statement": "coefficients() of user supplied lengths can throw, e.g., for elements of different number fields (C65), and induce() calls it before and after its loop. A user who catches such exceptions can go on using all IETs: whatever has been thrown and caught before, the IETs and their lengths are in a state that can also be reached without exceptions, all functions return what they would return there unless coefficients() throws again, and no assertion fails and nothing is undefined. When induce(limit) throws then either nothing has changed or exactly limit rounds of Zorich induction have been performed (this can happen, so the call must not be blindly repeated); induce(-1) throws only before it changes anything. When safInvariant() or one of the Boshernitzan criteria throws, no labels and lengths have changed.", "quantifier": "all valid IETs sharing their lengths; all functions coefficients() that in each call return coordinates over some basis or throw; all histories of calls, some of which throw; all limits", "why_tests_cant": "Each of the calls to coefficients() can throw or not, in any combination over a history; tests have no lengths that throw in the middle of a history and cannot enumerate when they do.", "anchors": ["libintervalxt/src/interval_exchange_transformation.cc:117-138", "libintervalxt/src/interval_exchange_transformation.cc:198-271", "libintervalxt/src/interval_exchange_transformation.cc:417-466", "libintervalxt/intervalxt/sample/renf_elem_coefficients.hpp:36-66"]}
{"id": "C87", "title": "Exceptions thrown by coefficients() leave decompositions in a valid state", "statement": "decompositionStep() and decompose() call coefficients() of the lengths, which can throw (C65, C86), also after a component has been changed. A user who catches such exceptions can go on using the DynamicalDecomposition: whatever has been thrown and caught before, the components are valid IETs whose labels together with the eliminated labels are those of the original IET, each of them is a first return map and every orbit of the original IET meets exactly one of them, cylinder() and withoutPeriodicTrajectory() tell what they tell without exceptions (C37), the connections recorded on the boundaries are exactly the ones that have been returned, in both directions, they are saddle connections of the original IET, the consistency check succeeds, and further steps return or throw what coefficients() throws; no assertion fails. When decompositionStep() throws, no component has been created and no other component has changed; at most some steps of Rauzy induction have been performed on the component itself, and this can happen, so the call cannot be blindly repeated with the same limit. decompose() that throws leaves the state after some calls of decompositionStep(), the last of which may have thrown.", "quantifier": "all valid IETs; all functions coefficients() that in each call return coordinates over some basis or throw; all histories of steps of any components with any limits, some of which throw; all targets of decompose()", "why_tests_cant": "Each step calls coefficients() several times and each of the calls can throw, in any combination over a history; there are no lengths that throw in the tests.", "anchors": ["libintervalxt/src/component.cc:165-258", "libintervalxt/src/component.cc:444-464", "libintervalxt/src/dynamical_decomposition.cc:65-68", "libintervalxt/src/interval_exchange_transformation.cc:198-271"]}
{"id": "C88", "title": "The group generated by the lengths never changes", "statement": "The lengths change with every call but the additive group that is generated by the lengths of the intervals does not: any calls of zorichInduction(), swap(), reduce(), induce(), safInvariant() and boshernitzanNoPeriodicTrajectory() on IETs that share lengths preserve the group generated by the lengths of all these IETs, and the lengths of the components of a decomposition always generate the same group as the lengths of the original IET. So when all components are cylinders, their lengths generate the same group as the original lengths, and a number divides the lengths of all cylinders iff it divides all original lengths; for integers, the greatest common divisors agree. If n of the original lengths are linearly independent over the integers then the components always have at least n intervals, e.g., there are at least n cylinders when all components are cylinders.", "quantifier": "all IETs with positive lengths in any ordered ring, all histories of calls, all histories of decompositionStep() calls with any limits", "why_tests_cant": "The lengths after a call are new numbers; a wrong subtraction (e.g. of a wrong multiple, or dropping the wrong interval of a connection) often still leaves a valid IET, and tests compare with a few expected outputs only.", "anchors": ["libintervalxt/src/interval_exchange_transformation.cc: zorichInduction, reduce, induce", "libintervalxt/intervalxt/sample/detail/lengths.ipp: Lengths::subtract, Lengths::subtractRepeated", "libintervalxt/src/component.cc:165-287 (decompositionStep)"]}
{"id": "C89", "title": "Components can be decomposed on their own", "statement": "At any time during a decomposition one can call iet() on all components and decompose these IETs separately, instead of calling decompositionStep() on the components. The cylinders that are found in this way are, with the same labels and lengths, cylinders that are found when the original IET is decomposed until each component has a single interval or no periodic points; and when this is so for all the separate decompositions, too, they are all the cylinders. The separate decompositions can always be completed, i.e., no component has a saddle connection. Then the number of components, and the numbers of separating and non-separating connections that have been reported before iet() and by the separate decompositions, are those of a complete decomposition of the original IET.", "quantifier": "all IETs with positive lengths, all histories of decompositionStep() calls before iet(), for each of the separate decompositions, and for the decomposition they are compared with", "why_tests_cant": "It relates several independent computations whose steps can be interleaved and limited in arbitrarily many ways; tests run decompositions of single IETs.", "anchors": ["libintervalxt/src/component.cc:466-469 (iet)", "libintervalxt/src/component.cc:165-287 (decompositionStep)", "libintervalxt/intervalxt/sample/detail/lengths.ipp: forget"]}
{"id": "C90", "title": "The saddle connections of a component are those of the original IET that have not been reported yet", "statement": "At any time during a decomposition: there is a saddle connection in a component from the right of its bottom interval b to the right of its top interval t, if and only if there is one in the original IET from the separatrix() at the bottom half edge b to the separatrix() at the top half edge t. Every saddle connection of the original IET has been reported or is one of a component in this sense, and not both. In particular, when iet() of a component is decomposed completely, then exactly the saddle connections of the original IET between separatrices of the component are reported; together with those reported before iet(), this gives the connections that a complete decomposition of the original IET reports. The source labels have to be translated by separatrix(): the labels reported for iet() need not be the ones of a connection of the original IET.", "quantifier": "all IETs with positive lengths, all histories of decompositionStep() calls on the original IET and on the IETs returned by iet(), all components and half edges", "why_tests_cant": "Saddle connections are a statement about infinite orbits, and the states of a decomposition and the separate decompositions depend on arbitrarily many choices; tests compare the connections of few decompositions.", "anchors": ["libintervalxt/src/half_edge.cc:125-132 (separatrix)", "libintervalxt/src/separatrix.cc (atTop, atBottom)", "libintervalxt/src/component.cc:165-287 (decompositionStep)", "libintervalxt/src/component.cc:466-469 (iet)"]}
{"id": "C91", "title": "The genus only decreases when non-separating connections are removed and bounds the number of minimal components", "statement": "Points in the interval x are translated by the sum over all intervals y of crossing(x, y) times the length of y, where crossing(x, y) is 1 if y comes before x in the bottom but not in the top, -1 if it comes before x in the top but not in the bottom, and 0 otherwise. The rank of the matrix of crossings is even; half of it is the genus. swap(), zorichInduction(), reduce() and induce() never increase the sum of the genera of all the IETs; it decreases by at most one for each interval that is removed, so it is kept when no interval is removed. In a decomposition, the sum of the genera of the components never exceeds the genus of the original IET, and is smaller by at most the number of non-separating connections reported. At any time, at most genus many components have only dense orbits; when no component has a saddle connection, then at most genus many components have more than one interval. There are never more components than intervals of the original IET minus its genus. The genus is at most half of the number of the intervals. The bound is attained.", "quantifier": "all IETs with positive lengths, all sequences of calls on them, all histories of decompositionStep() calls, all embeddings of the lengths", "why_tests_cant": "The genus is an invariant of arbitrarily long inductions; tests can only compute it along few of them, and whether all orbits of a component are dense cannot be observed at all.", "anchors": ["libintervalxt/src/interval_exchange_transformation.cc:79-115 (zorichInduction)", "libintervalxt/src/interval_exchange_transformation.cc:306-360 (reduce)", "libintervalxt/src/interval_exchange_transformation.cc:198-271 (induce)", "libintervalxt/src/component.cc:165-287 (decompositionStep)"]}
{"id": "C92", "title": "In Python, every type of lengths is registered for pickling exactly once", "statement": "In a Python session, consisting of any sequence of creating lengths (directly or by creating an IET) and of pickling or unpickling, no type of lengths is registered with cereal more than once, even if lengths of this type are created with different headers. When something is pickled, then all types of lengths that have been created (without an exception) before are registered, except for those with GMP entries. When a type is registered then the headers of one of the calls that created such lengths have been included before. Types with GMP entries are never registered; instead there is a warning every time that something is pickled after such lengths have been created.", "quantifier": "all sequences of calls, all numbers and types of lengths, all headers, all orders in which Python visits the elements of a set, all spellings of the names of the types", "why_tests_cant": "The order in which sets are visited and the order in which types are created and pickled in a session are arbitrary; tests run few sessions.", "anchors": ["pyintervalxt/src/pyintervalxt/cppyy_intervalxt.py:48-89 (LengthRegistrar)", "pyintervalxt/src/pyintervalxt/cppyy_intervalxt.py:169-198 (Lengths)"]}
{"id": "C93", "title": "Euler's formula: intervals, singularities, and genus", "statement": "The surface of which an IET with n > 0 intervals is a first return map has s singularities (including marked points) and genus g with s + 2g = n + 1. Calls that do not remove intervals only create singularities by splitting IETs, exactly one for each new IET; in particular, zorichInduction() and swap() keep the number of singularities. In general, for each interval that is removed the number of singularities changes by at most one, apart from the one new singularity for each new IET. In a decomposition, there are always fewer components than the genus plus the number of singularities, and this bound is attained.", "quantifier": "all IETs, all lengths, all sequences of calls, all steps of decompositions", "why_tests_cant": "Tests fix a permutation; here the permutations, the lengths, and the calls are arbitrary.", "anchors": ["libintervalxt/src/interval_exchange_transformation.cc:79-115 (zorichInduction)", "libintervalxt/src/interval_exchange_transformation.cc:306-360 (reduce)", "libintervalxt/src/interval_exchange_transformation.cc:198-271 (induce)", "libintervalxt/src/component.cc:165-287 (decompositionStep)"]}
{"id": "C94", "title": "Lengths of several types survive saving and loading", "statement": "Lengths of any registered types can be saved to one archive. They are loaded again with their types, their values, and in the same order by any program in which these types have been registered, no matter which other types are registered and in which order. Saving lengths of a type that is not registered throws. Loading such an archive in a program where one of its types is not registered throws. Only archives with a null pointer, which are never written, lead to undefined behaviour.", "quantifier": "all lists of lengths, all types, all sets of registered types in the program that saves and in the program that loads", "why_tests_cant": "Tests save and load in the same program with a fixed set of registered types, most of them a single object.", "anchors": ["libintervalxt/intervalxt/erased/serializable.hpp:66-86 (saveErased, loadErased, serializable)", "libintervalxt/intervalxt/erased/detail/serializable.hpp:30-67", "libintervalxt/intervalxt/erased/detail/cereal.hpp:41-53", "libintervalxt/intervalxt/erased/cereal.hpp:36-37 (LIBINTERVALXT_ERASED_REGISTER)", "libintervalxt/intervalxt/sample/cereal.hpp:33-45"]}
{"id": "C95", "title": "Induction unwinds by a unimodular matrix that preserves the intersection form", "statement": "As long as no interval of an IET has been removed, any calls (on it or on any other IETs) leave it as a first return map to a right part of its original state or, when its rows have been exchanged, of the inverse of its original state. All points of an interval x visit the original intervals y the same number N[y, x] of times until they return. The matrix N consists of non-negative integers, has determinant one, turns the new lengths into the original lengths (and its inverse, also a matrix of integers, turns the original lengths into the new ones), and N^T I N = I' where I and I' are the original and the new intersection forms, i.e., the matrices that say which intervals are exchanged.", "quantifier": "all IETs, all lengths, all sequences of calls on any IETs that share lengths", "why_tests_cant": "The number of visits depends on arbitrary long sequences of calls and on lengths in arbitrary rings.", "anchors": ["libintervalxt/src/interval_exchange_transformation.cc:79-115 (zorichInduction)", "libintervalxt/src/interval_exchange_transformation.cc:289-292 (swap)", "libintervalxt/src/interval_exchange_transformation.cc:198-271 (induce)"]}
{"id": "C96", "title": "Eventually every interval visits all the original intervals", "statement": "For each irreducible IET there is a number N such that whenever induce(limit) with a limit of at least N reports LIMIT_REACHED or WITHOUT_PERIODIC_TRAJECTORY_BOSHERNITZAN, the points of each interval of what is left visit all of the original intervals before they return, i.e., all entries of the matrix of visits are positive. So the original lengths are combinations of the new lengths with positive integers as coefficients, and the sum of the new lengths is not larger than any of the original lengths. The same holds for LIMIT_REACHED that is reported by decompositionStep(limit) for a component.", "quantifier": "all irreducible IETs with Archimedean lengths of any rank, all limits from some N on, all components in all reachable decompositions", "why_tests_cant": "The number of rounds that are necessary cannot be bounded in terms of the number of intervals; a test only looks at fixed lengths.", "anchors": ["libintervalxt/src/interval_exchange_transformation.cc:198-271 (induce)", "libintervalxt/src/interval_exchange_transformation.cc:79-115 (zorichInduction)", "libintervalxt/src/component.cc: decompositionStep"]}
{"id": "C97", "title": "What left(), right(), top(), and bottom() return in Python", "statement": "Whatever has been called on a decomposition, including inject(), left() and right() of a component return in Python, i.e., std::get<0> never throws, and they contain exactly the connections of left() and right() in C++ in the same order. Without inject(), the perimeter of a component consists of bottom(), the connections of right(), top(), and the connections of left(), where bottom() and top() start and end with half edges, the connections of left() are antiparallel and the ones of right() are parallel. In contrast, the wrapper throws for any list that contains a half edge. The labels in top() and bottom() of an IET are printed in Python as the same names, different labels of any IETs that share lengths have different names, and labels keep their names whatever is called.", "quantifier": "all IETs, all decompositions, all sequences of calls, all components", "why_tests_cant": "That a variant always holds its first alternative is a statement about all the states of a decomposition; a test only sees some components.", "anchors": ["pyintervalxt/src/pyintervalxt/cppyy_intervalxt.py:92-99 (name_labels)", "pyintervalxt/src/pyintervalxt/cppyy_intervalxt.py:109-110", "pyintervalxt/src/pyintervalxt/cppyy_intervalxt.py:135-142 (connections)", "libintervalxt/src/component.cc: left, right", "libintervalxt/intervalxt/forward.hpp:62 (Side)", "libintervalxt/intervalxt/sample/detail/lengths.ipp:170-183 (render)"]}
{"id": "C98", "title": "Moving IETs, decompositions, and handles", "statement": "Moving an IET, lengths, a decomposition, or a handle (component, half edge, separatrix, connection) into another variable does not touch any object, and any call on the new variable does what it would have done on the old one. Assigning by moving destroys exactly what the variable kept alive before, assigning a variable to itself changes nothing. Variables that have been moved from keep nothing alive; they can be destroyed, moved, and assigned to, and anything else that is called on them is undefined. This is the only source of dangling pointers: all other calls on variables of the right type are defined, whatever has been moved, assigned, and destroyed before.", "quantifier": "all programs, i.e., all sequences of calls, moves, assignments, and destructions of variables", "why_tests_cant": "Dangling pointers often go unnoticed in a test, and the order in which variables are moved and destroyed is arbitrary.", "anchors": ["libintervalxt/intervalxt/movable.hpp:30", "libintervalxt/intervalxt/copyable.hpp:31", "libintervalxt/intervalxt/shared.hpp:33", "libintervalxt/src/impl/implementation_of_decomposition.hpp:47", "libintervalxt/src/impl/lengths_with_connections.hpp:56-61"]}
{"id": "C99", "title": "Visits grow without bounds and lengths shrink to zero", "statement": "For each irreducible IET and each K there is a number N such that whenever induce(limit) with a limit of at least N reports LIMIT_REACHED or WITHOUT_PERIODIC_TRAJECTORY_BOSHERNITZAN, the points of each interval of what is left visit each of the original intervals at least K times before they return. So K copies of what is left fit into each of the original intervals, and for each positive length there is a number N such that what is left is shorter than that length. The same holds for LIMIT_REACHED that is reported by decompositionStep(limit) for a component.", "quantifier": "all irreducible IETs with Archimedean lengths of any rank, all K, all limits from some N on, all components in all reachable decompositions", "why_tests_cant": "This is a statement about all limits and all K, the number of rounds that are necessary cannot be bounded in terms of the number of intervals.", "anchors": ["libintervalxt/src/interval_exchange_transformation.cc:198-271 (induce)", "libintervalxt/src/interval_exchange_transformation.cc:79-115 (zorichInduction)", "libintervalxt/src/component.cc: decompositionStep"]}
{"id": "C100", "title": "Archives with IETs whose lengths have different types", "statement": "Any list of valid or default-constructed IETs can be saved to one archive, even if their lengths have different types, as long as these types are registered. Loading it in a program in which these types are registered, in any order and next to other objects, gives the same IETs in the same order: same labels, lengths of the same type with the same values, not swapped. Two loaded IETs share their lengths exactly if the original ones did, none shares its lengths with an object that existed before, and each lengths object is written only once. If one of the types is not registered when saving or when loading then there is an exception and never undefined behaviour.", "quantifier": "for all families of types of lengths, all injective names, all lists of IETs with any sharing among their lengths, all registrations in the writing and in the reading program, all objects that exist in the reading program", "why_tests_cant": "The archive interleaves two tables, of shared objects and of names of types; whether references resolve correctly depends on the whole sequence of what has been written before, and there are infinitely many such sequences and combinations of types.", "anchors": ["libintervalxt/intervalxt/cereal.hpp:66-92", "libintervalxt/intervalxt/erased/serializable.hpp:40-86", "libintervalxt/intervalxt/erased/detail/cereal.hpp:40-60", "libintervalxt/intervalxt/sample/cereal.hpp:32-45"]}
{"id": "C101", "title": "The assertions of the QUOTIENT strategy never fail", "statement": "For every homogeneous system of rational equations, hasNonZeroNonNegativeVector with the QUOTIENT strategy never fails one of its assertions, in particular the one that compares the number of minimized equations to the codimension of the subspace, and returns whether there is a solution that is non-negative and not zero. The number of minimized equations is the rank of the given system, and together with the affine dimension it is the number of variables. A system that is not homogeneous is rejected with an exception.", "quantifier": "every rational matrix of any size, with any linear dependencies between its rows", "why_tests_cant": "The assertion is about the rank of arbitrary rational matrices; tests compare a few systems, most of them without dependent rows.", "anchors": ["libintervalxt/src/rational_affine_subspace.cc:142-167"]}
{"id": "C102", "title": "Boshernitzan's criterion and SAF decide exchanges of two intervals", "statement": "For an IET that exchanges two intervals, boshernitzanNoPeriodicTrajectory() returns true exactly if there is no periodic point. It returns false exactly if every point is periodic, and this is the case exactly if safInvariant() is zero.", "quantifier": "all lengths with faithful coefficients, all IETs with two exchanged intervals in all reachable states, all points of any ordered ring containing the lengths", "why_tests_cant": "The claim is about all points and all pairs of lengths; whether an orbit ever closes up is not decidable by following it.", "anchors": ["libintervalxt/src/interval_exchange_transformation.cc:117-138"]}
{"id": "C103", "title": "Decomposing an exchange of two integer intervals computes their gcd", "statement": "An IET that exchanges two intervals of integer lengths x and y is decomposed by decompose() into exactly one cylinder, and the width of this cylinder is gcd(x, y). Every point of the IET returns to itself exactly after the multiples of (x + y) / gcd(x, y) steps.", "quantifier": "all positive integers x and y (with less than half a billion binary digits in total for the termination of decompose()), all lawful implementations of lengths, all histories of decomposition steps before, all points with coordinates in any ordered ring", "why_tests_cant": "There are infinitely many pairs of lengths and ways to interrupt the decomposition.", "anchors": ["libintervalxt/src/dynamical_decomposition.cc", "libintervalxt/src/component.cc", "libintervalxt/src/interval_exchange_transformation.cc:79-116"]}
{"id": "C104", "title": "Exchanges of two intervals always decompose", "statement": "For an IET that exchanges two intervals of lengths x and y, decompose() returns true and there is exactly one component afterwards. If y / x = m / n in lowest terms then the component is known to be a cylinder and its width u is the unit with x = n u and y = m u. If y / x is irrational then the component still has two intervals and is known to be without periodic trajectories, with any limit on the number of steps.", "quantifier": "all lengths x and y in any ordered ring (with faithful coefficients in the irrational case; with less than half a billion binary digits in n and m in the rational case), all histories of decomposition steps before", "why_tests_cant": "Whether the decomposition of a rotation ever ends depends on the arithmetic of the two lengths; there are infinitely many ratios of any complexity.", "anchors": ["libintervalxt/src/dynamical_decomposition.cc", "libintervalxt/src/component.cc"]}
{"id": "C105", "title": "make() returns lengths together with their labels", "statement": "sample::Lengths::make(values...) throws std::invalid_argument if a value is negative. Otherwise it returns lengths with an empty stack and pairwise different labels such that the i-th label has the i-th value. Looking up any other label, e.g. a default-constructed one, throws std::out_of_range. Any arrangement of some of the labels with nonzero values, in the top and in the bottom contour, is accepted by the constructor of IntervalExchangeTransformation and is a valid state for all other operations. Default-constructed lengths are lengths without any values: no label has a length and no IET can be created with them.", "quantifier": "all lists of values in any ordered ring, all values of random() in the default constructor of labels, all pairs of arrangements of a nonempty set of labels with nonzero values", "why_tests_cant": "Tests construct a few IETs with a few positive values and never look up a label from elsewhere.", "anchors": ["libintervalxt/intervalxt/sample/detail/lengths.ipp:37-38", "libintervalxt/intervalxt/sample/detail/lengths.ipp:57-78", "libintervalxt/src/label.cc:29-30"]}
{"id": "C106", "title": "Boshernitzan's criterion and SAF decide irreducible exchanges of three intervals", "statement": "For an IET that exchanges three intervals such that no proper prefix of the top contour has the same labels as the prefix of the bottom contour, boshernitzanNoPeriodicTrajectory() returns true exactly if there is no periodic point. It returns false exactly if every point is periodic, and this is the case exactly if safInvariant() is zero.", "quantifier": "all lengths with faithful coefficients, all IETs with three intervals that cannot be reduced in all reachable states, all points of any ordered ring containing the lengths", "why_tests_cant": "The claim is about all points and all triples of lengths; lengths need not be commensurable for all points to be periodic, and whether an orbit ever closes up is not decidable by following it.", "anchors": ["libintervalxt/src/interval_exchange_transformation.cc:117-138"]}
{"id": "C107", "title": "IETs with at most three intervals decompose completely", "statement": "For an IET with at most three intervals, in any arrangement and with any lengths, there is a number of rounds of induction such that induce() with this or any larger limit does not report LIMIT_REACHED, and the same is true for decompositionStep() on each component in each state of its decomposition. Unless a component with vanishing SAF invariant admits more than a billion rounds of induction, so that an int could overflow, decompose() returns true from every state of the decomposition, and each component is then known to be a cylinder or known to be without periodic trajectories.", "quantifier": "all lengths in any Archimedean ordered ring with faithful coefficients (with any number of coefficients), all IETs with at most three intervals in all reachable states, all states of their decompositions", "why_tests_cant": "That the induction ends is a statement about all lengths; with four intervals and lengths of higher degree there are IETs for which the decomposition is not known to end.", "anchors": ["libintervalxt/src/interval_exchange_transformation.cc: induce, boshernitzanNoPeriodicTrajectory", "libintervalxt/src/component.cc: decompositionStep, decompose", "libintervalxt/src/dynamical_decomposition.cc: decompose"]}
{"id": "C108", "title": "IETs with at most three intervals and without periodic points are recognised at once", "statement": "If an IET with at most three intervals has no periodic point then decompose() returns true from every state of its decomposition, with any limit on the number of steps (even zero). There is exactly one component then; it has at least two intervals and is known to be without periodic trajectories.", "quantifier": "all lengths in any ordered ring with faithful coefficients (with any number of coefficients), all IETs with at most three intervals, all states of their decompositions, all limits", "why_tests_cant": "That there is no periodic point is a statement about all orbits; there are infinitely many such IETs and ways to interrupt the decomposition.", "anchors": ["libintervalxt/src/interval_exchange_transformation.cc: induce, boshernitzanNoPeriodicTrajectory", "libintervalxt/src/component.cc: decompositionStep, decompose", "libintervalxt/src/dynamical_decomposition.cc: decompose"]}
{"id": "C109", "title": "Completely periodic IETs are those that decompose into cylinders", "statement": "If all components of a decomposition are cylinders then all points of the IET are periodic. Conversely, if all points of an IET are periodic, with lengths that need not be commensurable, then decompose() returns true from every state of its decomposition and all components are known to be cylinders then, unless WITHOUT_PERIODIC_TRAJECTORY_AUTO_SIMILAR has been reported on the way (which is not sound, see C23) or a component admits more than a billion rounds of induction so that an int could overflow.", "quantifier": "all lengths in any Archimedean ordered ring with faithful coefficients, all IETs with any number of intervals, all states of their decompositions, all points (in any ordered ring containing the lengths for the first part)", "why_tests_cant": "Periodicity is a statement about all points, and termination is a statement about all lengths.", "anchors": ["libintervalxt/src/interval_exchange_transformation.cc: induce", "libintervalxt/src/component.cc: decompositionStep, decompose, cylinder", "libintervalxt/src/dynamical_decomposition.cc: decompose"]}
{"id": "C110", "title": "IETs with at most three intervals are never reported as self-similar", "statement": "For an IET with at most three intervals, induce() and decompositionStep() never report WITHOUT_PERIODIC_TRAJECTORY_AUTO_SIMILAR, whatever has been done to the IET before and also when its SAF invariant vanishes while its lengths are not commensurable. So, when such an IET is decomposed, every component for which withoutPeriodicTrajectory() is true really has no periodic points; the unsoundness described in C23 and C37 needs at least four intervals.", "quantifier": "all lengths in any ordered ring with faithful coefficients that embeds into an Archimedean ordered field, all reachable states, all IETs with at most three intervals, all states of their decompositions, all limits", "why_tests_cant": "That the tracker never reports is a statement about all lengths and all rounds of induction, and the absence of periodic points is a statement about all points.", "anchors": ["libintervalxt/src/similarity_tracker.cc: loop", "libintervalxt/src/interval_exchange_transformation.cc: induce", "libintervalxt/src/component.cc: decompositionStep, withoutPeriodicTrajectory"]}
{"id": "C111", "title": "decompose() is exact for IETs with at most three intervals", "statement": "Let decompose() with the default target return true for an IET with at most three intervals, called with any limit and in any state of the decomposition. Then every component is either reported as a cylinder and all its points are periodic, or it is reported as being without periodic trajectory and none of its points is periodic. The original IET has a periodic point exactly if some component is a cylinder, and all its points are periodic exactly if all components are cylinders. So these two answers do not depend on the limits, on the order of the calls, on the polyhedra library or on the type of the lengths. For IETs with more intervals the same holds unless WITHOUT_PERIODIC_TRAJECTORY_AUTO_SIMILAR has been reported on the way. The two answers are also correct if it has only been reported for components that were aligned with the state that the similarity tracker remembers.", "quantifier": "all lengths in any ordered ring with faithful coefficients that embeds into an Archimedean ordered field, all IETs with at most three intervals, all states of their decompositions, all limits", "why_tests_cant": "Periodicity and its absence are statements about all points of the IET and all its iterates, for all lengths; no execution shows that a point is not periodic.", "anchors": ["libintervalxt/src/dynamical_decomposition.cc: decompose", "libintervalxt/src/component.cc: decompositionStep, cylinder, withoutPeriodicTrajectory"]}
{"id": "C112", "title": "The cylinders of an IET with at most three intervals do not depend on how it is decomposed", "statement": "Decompose an IET with at most three intervals twice, by any decomposition steps in any order and with any limits, such that decompose() with the default target returns true in the end. Then both decompositions have the same cylinders, with the same labels and the same lengths. If the second one is a decomposition of the IET after swap(), i.e., of its inverse, then there are the same number of cylinders of each length. Calling induce() before decomposing an IET produces no other cylinders. The periodic points of the IET are exactly the points whose orbits get to one of the cylinders.", "quantifier": "all lengths in any ordered ring with faithful coefficients that embeds into an Archimedean ordered field, all IETs with at most three intervals, all pairs of histories of decomposition steps, all limits", "why_tests_cant": "There are infinitely many lengths, and unboundedly many orders and limits of decomposition steps for each of them; that a point is not periodic is a statement about all its iterates.", "anchors": ["libintervalxt/src/dynamical_decomposition.cc: decompose", "libintervalxt/src/component.cc: decompositionStep, cylinder", "libintervalxt/src/interval_exchange_transformation.cc: swap"]}
{"id": "C113", "title": "Components without periodic trajectories are minimal when there are at most three intervals", "statement": "If an IET with at most three intervals has no periodic point, then every orbit visits every open interval, forwards and backwards, even if the IET has saddle connections. So, when decompose() with the default target returned true for an IET with at most three intervals, every component is a cylinder with a single interval, or withoutPeriodicTrajectory() is true and all orbits of the component are dense in it. Every orbit of the original IET meets a component; it is periodic exactly if this component is a cylinder, and otherwise it gets arbitrarily close to all points whose orbits meet the same component.", "quantifier": "all Archimedean lengths with faithful coefficients, all real points, all IETs with at most three intervals, all states of their decompositions, all limits", "why_tests_cant": "Density is a statement about all points, all open intervals and infinite orbits.", "anchors": ["libintervalxt/src/dynamical_decomposition.cc: decompose", "libintervalxt/src/component.cc: decompositionStep, withoutPeriodicTrajectory"]}
