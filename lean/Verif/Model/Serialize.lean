import Verif.Model.Heap

/-!
# Saving and loading

Models libintervalxt/intervalxt/cereal.hpp and libintervalxt/intervalxt/sample/cereal.hpp.  An archive is a tree of values; values of structured
types are sequences of named values that are read in the order in which they have been written.

Simplifications: how cereal writes such trees as text or bytes is not modelled.  The wrapper which saves the type of a type-erased `Lengths`
(libintervalxt/intervalxt/erased/serializable.hpp, detail/cereal.hpp) is modelled in `Model/Erased`; here, all lengths are `sample::Lengths<T>` for the same `T`.
Numbers of type `T` are saved and loaded without change (this is up to the library that provides `T`).
-/

namespace Verif

/-- What is written to an archive by libintervalxt/intervalxt/cereal.hpp:69-73.  `ptr id data` is how cereal writes a `std::shared_ptr` (cereal/types/memory.hpp): `id` is 0 for a null pointer;
objects are numbered from 1 in the order in which they are first seen, and the object is written only the first time. -/
inductive Value (T : Type)
  | nat (n : ℕ)
  | number (x : T)
  | list (l : List (Value T))
  | object (l : List (String × Value T))
  | ptr (id : ℕ) (data : Option (Value T))

namespace Value

variable {T : Type}

/-- Reading a vector: every entry is read by the given function. (cereal.hpp:75-91) -/
def readList {α : Type} (f : Value T → M α) : Value T → M (List α)
  | list l => l.mapM f
  | _ => .error .invalidArgument

/-- cereal.hpp:56-58 `Serialization<Label>::save`; label.hpp: a label is its id. -/
def saveLabel (l : Label) : Value T := nat l

/-- cereal.hpp:60-63 `Serialization<Label>::load` -/
def loadLabel : Value T → M Label
  | nat n => .ok n
  | _ => .error .invalidArgument

/-- A number; see the simplifications above. (sample/cereal.hpp:40-44) -/
def loadNumber : Value T → M T
  | number x => .ok x
  | _ => .error .invalidArgument

/-- sample/cereal.hpp:35-38 `Serialization<sample::Lengths<T>>::save` -/
def saveLengths (s : SLengths T) : Value T :=
  object [("lengths", list (s.lengths.map number)), ("stack", list (s.stack.map saveLabel))]

/-- sample/cereal.hpp:41-44 `Serialization<sample::Lengths<T>>::load`; the checks of the constructor are not made. -/
def loadLengths : Value T → M (SLengths T)
  | object [("lengths", l), ("stack", st)] => do
    let lengths ← readList loadNumber l
    let stack ← readList loadLabel st
    return ⟨stack, lengths⟩
  | _ => .error .invalidArgument

/-- Saving a `std::shared_ptr<Lengths>` (used in cereal.hpp:72).  `seen` are the addresses that have been written to this archive before. -/
def savePtr (cells : List (SLengths T)) (seen : List ℕ) : Option ℕ → M (Value T × List ℕ)
  | none => .ok (ptr 0 none, seen)
  | some a =>
    if a ∈ seen then .ok (ptr (seen.idxOf a + 1) none, seen)
    else match cells[a]? with
      | none => .error .ub
      | some s => .ok (ptr (seen.length + 1) (some (saveLengths s)), seen ++ [a])

/-- Loading a `std::shared_ptr<Lengths>` (used in cereal.hpp:82).  `seen` are the numbers and the addresses of the objects that have been loaded from this archive
before, the last one first; a new object is allocated in `cells`. -/
def loadPtr (cells : List (SLengths T)) (seen : List (ℕ × ℕ)) : Value T → M (Option ℕ × List (SLengths T) × List (ℕ × ℕ))
  | ptr 0 none => .ok (none, cells, seen)
  | ptr (n + 1) none =>
    match seen.lookup (n + 1) with
    | none => .error .invalidArgument
    | some a => .ok (some a, cells, seen)
  | ptr n (some data) => do
    let s ← loadLengths data
    return (some cells.length, cells ++ [s], (n, cells.length) :: seen)
  | _ => .error .invalidArgument

end Value

/-- An `IntervalExchangeTransformation` with the address of its lengths which is null for a default-constructed one
(interval_exchange_transformation.cc:273-274). -/
abbrev IETObject (T : Type) := IET T × Option ℕ

namespace IETObject

variable {T : Type}

/-- interval_exchange_transformation.cc:273-274: the default constructor; all assertions hold. -/
def default : IETObject T := (IET.fresh [] [], none)

/-- cereal.hpp:69-73 `Serialization<IntervalExchangeTransformation>::save` -/
def save (cells : List (SLengths T)) (seen : List ℕ) (self : IETObject T) : M (Value T × List ℕ) := do
  let top := Value.list (self.1.top.map Value.saveLabel)
  let bottom := Value.list (self.1.bottom.map Value.saveLabel)
  let (lengths, seen) ← Value.savePtr cells seen self.2
  return (.object [("top", top), ("bottom", bottom), ("lengths", lengths)], seen)

/-- cereal.hpp:76-91 `Serialization<IntervalExchangeTransformation>::load` into a default-constructed IET. -/
def load [CommRing T] [LinearOrder T] (A : Arith T) (cells : List (SLengths T)) (seen : List (ℕ × ℕ)) :
    Value T → M (IETObject T × List (SLengths T) × List (ℕ × ℕ))
  | .object [("top", top), ("bottom", bottom), ("lengths", lengths)] => do
    let top ← Value.readList Value.loadLabel top
    let bottom ← Value.readList Value.loadLabel bottom
    let (lengths, cells, seen) ← Value.loadPtr cells seen lengths
    match lengths with
    | none =>
      assertM (top.length = 0 ∧ bottom.length = 0)
      return (default, cells, seen)
    | some a =>
      match cells[a]? with
      | none => .error .ub
      | some s =>
        let E ← IET.mk? (SLengths.ops A) top bottom s
        return ((E, some a), cells, seen)
  | _ => .error .invalidArgument

/-- Saving several IETs to the same archive. (cereal.hpp:66-92) -/
def saveAll (cells : List (SLengths T)) : List ℕ → List (IETObject T) → M (List (Value T))
  | _, [] => .ok []
  | seen, o :: os => do
    let (v, seen) ← save cells seen o
    return v :: (← saveAll cells seen os)

/-- Loading several IETs from the same archive. (cereal.hpp:66-92) -/
def loadAll [CommRing T] [LinearOrder T] (A : Arith T) : List (SLengths T) → List (ℕ × ℕ) → List (Value T) →
    M (List (IETObject T) × List (SLengths T))
  | cells, _, [] => .ok ([], cells)
  | cells, seen, v :: vs => do
    let (o, cells, seen) ← load A cells seen v
    let (os, cells) ← loadAll A cells seen vs
    return (o :: os, cells)

end IETObject

end Verif
