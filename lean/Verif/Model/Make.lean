import Verif.Model.Lengths

/-!
# Model of `sample::Lengths::make` and of labels that are not from any lengths
-/

namespace Verif

/-- libintervalxt/src/label.cc:29-30: the default constructor of a label.  `random()` may return any number, it is a parameter here. -/
def Label.default (random : ℕ) : Label := random

namespace SLengths

variable {T : Type} [CommRing T] [LinearOrder T]

/-- lengths.ipp:37-38 `toTuple`: the entries of a vector at the given indices, `at` throws if there is no such entry. -/
def toTuple (container : List Label) (indices : List ℕ) : M (List Label) :=
  indices.mapM (fun i => match container[i]? with
    | some l => .ok l
    | none => .error .outOfRange)

/-- lengths.ipp:52-55: the default constructor. -/
def default : SLengths T := ⟨[], []⟩

/-- lengths.ipp:64-71 `make`: lengths with the given values and the labels of these values.  A tuple is modelled as a pair of the lengths and a list.  The
code creates a `Lengths<T>`, i.e., one that uses the default implementations of floor division and coefficients. -/
def makeTuple (values : List T) : M (SLengths T × List Label) := do
  let lengths ← make values
  let labels ← toTuple lengths.labels (List.range values.length)
  return (lengths, labels)

end SLengths

end Verif
