import Verif.Spec
import Verif.Model.Archive
import Verif.Model.Arithmetic
import Verif.Model.Base
import Verif.Model.Checks
import Verif.Model.Codimension
import Verif.Model.Connections
import Verif.Model.Counter
import Verif.Model.Decomposition
import Verif.Model.Erased
import Verif.Model.Exceptions
import Verif.Model.ExceptionsDecomp
import Verif.Model.FieldCoefficients
import Verif.Model.Generators
import Verif.Model.Hash
import Verif.Model.Heap
import Verif.Model.IET
import Verif.Model.Lengths
import Verif.Model.Lifetime
import Verif.Model.Machine
import Verif.Model.Make
import Verif.Model.Maps
import Verif.Model.Pointer
import Verif.Model.PointerDecomp
import Verif.Model.Print
import Verif.Model.Python
import Verif.Model.PythonViews
import Verif.Model.Registrar
import Verif.Model.Render
import Verif.Model.Serialize
import Verif.Model.Subspace
import Verif.Model.World
import Verif.ExamplesCubic
import Verif.ExamplesDecomp
import Verif.ExamplesQuadratic
import Verif.ExamplesTotallyReal
import Verif.ReachDecomp
import Verif.Rounds
import Verif.SpecBasis
import Verif.SpecCoefficients
import Verif.SpecExceptions
import Verif.SpecExceptionsDecomp
import Verif.SpecItinerary
import Verif.SpecMinimal
import Verif.SpecNumbers
import Verif.SpecPrint
import Verif.SpecSurface
import Verif.SpecVertex
import Verif.SpecVisits
import Verif.Contract
import Verif.Reach
import Verif.Proofs.Arithmetic
import Verif.Proofs.Basis
import Verif.Proofs.Bosh
import Verif.Proofs.Boundary
import Verif.Proofs.Checks
import Verif.Proofs.Chunks
import Verif.Proofs.Code
import Verif.Proofs.Codimension
import Verif.Proofs.Commensurable
import Verif.Proofs.Conclude
import Verif.Proofs.Confluence
import Verif.Proofs.Connections
import Verif.Proofs.Contour
import Verif.Proofs.Corner
import Verif.Proofs.Cover
import Verif.Proofs.Cylinders
import Verif.Proofs.Decompose
import Verif.Proofs.Decomposition
import Verif.Proofs.Direction
import Verif.Proofs.Dyn
import Verif.Proofs.Euler
import Verif.Proofs.Exceptions
import Verif.Proofs.ExceptionsDecomp
import Verif.Proofs.FewLoop
import Verif.Proofs.FieldCoefficients
import Verif.Proofs.Found
import Verif.Proofs.Generators
import Verif.Proofs.Genus
import Verif.Proofs.Gordan
import Verif.Proofs.Growth
import Verif.Proofs.Independence
import Verif.Proofs.Independent
import Verif.Proofs.Induce
import Verif.Proofs.Inject
import Verif.Proofs.Itinerary
import Verif.Proofs.Keane
import Verif.Proofs.Lattice
import Verif.Proofs.LengthGroup
import Verif.Proofs.Levels
import Verif.Proofs.Lifetime
import Verif.Proofs.Logarithmic
import Verif.Proofs.Machine
import Verif.Proofs.Match
import Verif.Proofs.Minimal
import Verif.Proofs.Numbers
import Verif.Proofs.NumbersDecomp
import Verif.Proofs.NumbersSim
import Verif.Proofs.Parametric
import Verif.Proofs.Partition
import Verif.Proofs.PieceSaddle
import Verif.Proofs.Pointer
import Verif.Proofs.PointerDecomp
import Verif.Proofs.PointerInduce
import Verif.Proofs.PointerNew
import Verif.Proofs.Positive
import Verif.Proofs.Primitive
import Verif.Proofs.Print
import Verif.Proofs.RankTwo
import Verif.Proofs.Rauzy
import Verif.Proofs.Reach
import Verif.Proofs.Rebase
import Verif.Proofs.RebaseDecomp
import Verif.Proofs.Reduce
import Verif.Proofs.Relabel
import Verif.Proofs.RelabelDecomp
import Verif.Proofs.Rename
import Verif.Proofs.Renormalize
import Verif.Proofs.Rotation
import Verif.Proofs.Rounds
import Verif.Proofs.Saddle
import Verif.Proofs.Saf
import Verif.Proofs.Sample
import Verif.Proofs.Serialize
import Verif.Proofs.Settle
import Verif.Proofs.Shrink
import Verif.Proofs.Similar
import Verif.Proofs.Steps
import Verif.Proofs.Stored
import Verif.Proofs.Subspace
import Verif.Proofs.ThreeIntervals
import Verif.Proofs.Track
import Verif.Proofs.Tracker
import Verif.Proofs.Twin
import Verif.Proofs.Unique
import Verif.Proofs.Visits
import Verif.Proofs.World
import Verif.Proofs.Zorich
import Verif.Examples
import Verif.Props.AllPeriodic
import Verif.Props.Archive
import Verif.Props.Basis
import Verif.Props.Boshernitzan
import Verif.Props.Boundary
import Verif.Props.Checks
import Verif.Props.Codimension
import Verif.Props.Coefficients
import Verif.Props.Complete
import Verif.Props.ComponentSaddles
import Verif.Props.Confluence
import Verif.Props.Construction
import Verif.Props.Contour
import Verif.Props.Counter
import Verif.Props.Cylinders
import Verif.Props.DecompNodes
import Verif.Props.Decomposition
import Verif.Props.Dichotomy
import Verif.Props.Equality
import Verif.Props.Erased
import Verif.Props.Euclid
import Verif.Props.Euler
import Verif.Props.Exceptions
import Verif.Props.ExceptionsDecomp
import Verif.Props.Failures
import Verif.Props.FewDense
import Verif.Props.FewExact
import Verif.Props.FewIntervals
import Verif.Props.FewMinimal
import Verif.Props.FewSimilar
import Verif.Props.FewUnique
import Verif.Props.Found
import Verif.Props.Generators
import Verif.Props.Genus
import Verif.Props.Growth
import Verif.Props.HalfEdges
import Verif.Props.History
import Verif.Props.Independence
import Verif.Props.Independent
import Verif.Props.Induce
import Verif.Props.Inject
import Verif.Props.Instances
import Verif.Props.Itineraries
import Verif.Props.LengthGroup
import Verif.Props.Lengths
import Verif.Props.Lifetime
import Verif.Props.Logarithmic
import Verif.Props.Machine
import Verif.Props.Make
import Verif.Props.Minimal
import Verif.Props.Moves
import Verif.Props.Nested
import Verif.Props.Numbers
import Verif.Props.Positive
import Verif.Props.Print
import Verif.Props.Python
import Verif.Props.PythonViews
import Verif.Props.RankTwo
import Verif.Props.Reduce
import Verif.Props.Registrar
import Verif.Props.Relabel
import Verif.Props.Render
import Verif.Props.Renormalize
import Verif.Props.Rotation
import Verif.Props.Rounds
import Verif.Props.Saddles
import Verif.Props.SelfSimilar
import Verif.Props.Separatrix
import Verif.Props.Serialize
import Verif.Props.Sharing
import Verif.Props.Similar
import Verif.Props.SimilarRefuted
import Verif.Props.Split
import Verif.Props.Subspace
import Verif.Props.Target
import Verif.Props.Termination
import Verif.Props.ThreeIntervals
import Verif.Props.Towers
import Verif.Props.Unique
import Verif.Props.Visits
import Verif.Props.Zorich
