import Verif.Model.Serialize

/-!
# Saving and loading lengths of any type

Models libintervalxt/intervalxt/erased/serializable.hpp, erased/detail/serializable.hpp, erased/detail/cereal.hpp, and erased/cereal.hpp: `intervalxt::Lengths` is a
`boost::type_erasure::any`. It is saved as a `std::unique_ptr` to a polymorphic wrapper around the lengths. The type of the wrapper has to be registered with cereal.

Simplifications: the types of lengths are `sample::Lengths<V k>` for a family of types of numbers `V k`. The bit which says that a name follows in the archive is
modelled by the presence of that name, the numbers of types are not bounded by 2^31. Reading a number as a number of another type is an exception.
-/

namespace Verif

variable {K : Type} [DecidableEq K] {V : K → Type}

/-- lengths.hpp:48 `Lengths`: lengths of some type. -/
abbrev ErasedLengths (V : K → Type) := (k : K) × SLengths (V k)

/-- How cereal writes a `std::unique_ptr` to a polymorphic type (erased/serializable.hpp:69 and 75-76, cereal/types/polymorphic.hpp): types are numbered from 1 in the order in which they are first seen, the
name of the type is written only the first time. `id` is zero for a null pointer. Then there is the object itself unless there is a null pointer. -/
structure PolyPtr (V : K → Type) where
  id : ℕ
  name : Option String
  data : Option (Value ((k : K) × V k))

/-- sample/cereal.hpp:35-38 `Serialization<sample::Lengths<T>>::save` and `Serializable::save_` (erased/detail/cereal.hpp:43-46); nothing is written for the base class
(erased/serializable.hpp:53-57). -/
def saveUnerased (k : K) (s : SLengths (V k)) : Value ((k : K) × V k) := Value.saveLengths ⟨s.stack, s.lengths.map (Sigma.mk k)⟩

/-- Reading a number as a `V k`. (sample/cereal.hpp:34-44)  Simplification: numbers in the archive carry their type.  What happens when a number is read
as another type depends on the format of the archive; the model throws then, and no theorem depends on it since the name of the type is read first. -/
def castNumber (k : K) (x : (k : K) × V k) : M (V k) := if h : x.1 = k then .ok (h ▸ x.2) else .error .invalidArgument

/-- sample/cereal.hpp:41-44 `Serialization<sample::Lengths<T>>::load` and `Serializable::load_` (erased/detail/cereal.hpp:50-53). -/
def loadUnerased (k : K) (v : Value ((k : K) × V k)) : M (SLengths (V k)) := do
  let s ← Value.loadLengths v
  let lengths ← s.lengths.mapM (castNumber k)
  return ⟨s.stack, lengths⟩

/-- erased/serializable.hpp:67-70 `saveErased` with the wrapper from 83-86.  `registered` are the types that have been registered with `LIBINTERVALXT_ERASED_REGISTER`
(erased/cereal.hpp:36-37), `name` are the names with which they have been registered, `names` are the names of the types that have been written to this archive before.
Saving an object of another type throws. -/
def saveErased (name : K → String) (registered : List K) (names : List String) (x : ErasedLengths V) : M (PolyPtr V × List String) :=
  if x.1 ∈ registered then
    if name x.1 ∈ names then .ok (⟨names.idxOf (name x.1) + 1, none, some (saveUnerased x.1 x.2)⟩, names)
    else .ok (⟨names.length + 1, some (name x.1), some (saveUnerased x.1 x.2)⟩, names ++ [name x.1])
  else .error .invalidArgument

/-- The name of the type of the object which is read next. The names that have been read before are in `names`; `std::unordered_map::insert` does not overwrite. (erased/serializable.hpp:74-78 with cereal/types/polymorphic.hpp) -/
def loadName (names : List (ℕ × String)) (p : PolyPtr V) : M (String × List (ℕ × String)) :=
  match p.name with
  | some n => .ok (n, names ++ [(p.id, n)])
  | none => match names.lookup p.id with
    | some n => .ok (n, names)
    | none => .error .invalidArgument

/-- erased/serializable.hpp:73-78 `loadErased`: a null pointer would be dereferenced. Loading an object whose type is not registered throws. -/
def loadErased (name : K → String) (registered : List K) (names : List (ℕ × String)) (p : PolyPtr V) : M (ErasedLengths V × List (ℕ × String)) := do
  if p.id = 0 then throw .ub
  let (n, names) ← loadName names p
  match registered.find? (fun k => name k = n) with
  | none => throw .invalidArgument
  | some k =>
    match p.data with
    | none => throw .ub
    | some v => return (⟨k, ← loadUnerased k v⟩, names)

/-- Saving several lengths to the same archive. (erased/serializable.hpp:66-70) -/
def saveErasedAll (name : K → String) (registered : List K) : List String → List (ErasedLengths V) → M (List (PolyPtr V))
  | _, [] => .ok []
  | names, x :: xs => do
    let (p, names) ← saveErased name registered names x
    return p :: (← saveErasedAll name registered names xs)

/-- Loading several lengths from the same archive. (erased/serializable.hpp:72-78) -/
def loadErasedAll (name : K → String) (registered : List K) : List (ℕ × String) → List (PolyPtr V) → M (List (ErasedLengths V))
  | _, [] => .ok []
  | names, p :: ps => do
    let (x, names) ← loadErased name registered names p
    return x :: (← loadErasedAll name registered names ps)

end Verif
