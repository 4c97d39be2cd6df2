import Verif.Model.Erased

/-!
# Saving and loading IETs whose lengths can have any type

Combines `Model/Serialize` and `Model/Erased`: libintervalxt/intervalxt/cereal.hpp writes a `std::shared_ptr` to the type-erased lengths, the erased lengths are written
as a `std::unique_ptr` to a polymorphic wrapper. Hence an archive keeps two tables, one of the shared pointers and one of the names of types.

Simplifications: those of `Model/Serialize` and `Model/Erased`. Labels are written as their id; that there are named values in an archive is described by the
fields of structures here.
-/

namespace Verif

variable {K : Type} [DecidableEq K] {V : K → Type}

/-- How cereal writes a `std::shared_ptr<Lengths>` (cereal.hpp:72 and cereal/types/memory.hpp): `id` is 0 for a null pointer; objects are numbered from 1 in the order in which they are
first seen. The object is only written the first time. -/
structure SharedPtr (V : K → Type) where
  id : ℕ
  data : Option (PolyPtr V)

/-- cereal.hpp:69-73: what is written for an IET. -/
structure SavedIET (V : K → Type) where
  top : List ℕ
  bottom : List ℕ
  lengths : SharedPtr V

/-- The state of an archive that is written to (used in cereal.hpp:72 and erased/serializable.hpp:69): the addresses of the objects and the names of types written so far. -/
structure Writer where
  seen : List ℕ
  names : List String

/-- The state of an archive that is read from (used in cereal.hpp:82 and erased/serializable.hpp:76): the numbers and addresses of the objects that have been
created so far, the last one first, and the numbers and names of types read so far. -/
structure Reader where
  seen : List (ℕ × ℕ)
  names : List (ℕ × String)

/-- `IntervalExchangeTransformation` (impl/interval_exchange_transformation.impl.hpp:68-73) with the address of its type-erased lengths; a default-constructed IET has no lengths
(interval_exchange_transformation.cc:273-274). -/
inductive AnyIET (V : K → Type)
  | default
  | mk (k : K) (E : IET (V k)) (a : ℕ)

namespace AnyIET

/-- interval_exchange_transformation.cc:281-283 `top` -/
def top : AnyIET V → List Label
  | default => []
  | mk _ E _ => E.top

/-- interval_exchange_transformation.cc:285-287 `bottom` -/
def bottom : AnyIET V → List Label
  | default => []
  | mk _ E _ => E.bottom

/-- interval_exchange_transformation.cc:298-300 `lengths` -/
def lengths : AnyIET V → Option ℕ
  | default => none
  | mk _ _ a => some a

end AnyIET

/-- Saving a `std::shared_ptr<Lengths>` (used in cereal.hpp:72). -/
def saveShared (name : K → String) (registered : List K) (cells : List (ErasedLengths V)) (w : Writer) : Option ℕ → M (SharedPtr V × Writer)
  | none => .ok (⟨0, none⟩, w)
  | some a =>
    if a ∈ w.seen then .ok (⟨w.seen.idxOf a + 1, none⟩, w)
    else match cells[a]? with
      | none => .error .ub
      | some x => do
        let (p, names) ← saveErased name registered w.names x
        return (⟨w.seen.length + 1, some p⟩, ⟨w.seen ++ [a], names⟩)

/-- Loading a `std::shared_ptr<Lengths>` (used in cereal.hpp:82); a new object is allocated in `cells`. -/
def loadShared (name : K → String) (registered : List K) (cells : List (ErasedLengths V)) (r : Reader) (p : SharedPtr V) :
    M (Option ℕ × List (ErasedLengths V) × Reader) :=
  match p.data with
  | some q => do
    let (x, names) ← loadErased name registered r.names q
    return (some cells.length, cells ++ [x], ⟨(p.id, cells.length) :: r.seen, names⟩)
  | none =>
    if p.id = 0 then .ok (none, cells, r)
    else match r.seen.lookup p.id with
      | none => .error .invalidArgument
      | some a => .ok (some a, cells, r)

namespace AnyIET

/-- cereal.hpp:69-73 `Serialization<IntervalExchangeTransformation>::save` -/
def save (name : K → String) (registered : List K) (cells : List (ErasedLengths V)) (w : Writer) (o : AnyIET V) : M (SavedIET V × Writer) := do
  let (p, w) ← saveShared name registered cells w o.lengths
  return (⟨o.top, o.bottom, p⟩, w)

/-- cereal.hpp:76-91 `Serialization<IntervalExchangeTransformation>::load` into a default-constructed IET. -/
def load [∀ k, CommRing (V k)] [∀ k, LinearOrder (V k)] (A : ∀ k, Arith (V k)) (name : K → String) (registered : List K) (cells : List (ErasedLengths V)) (r : Reader)
    (v : SavedIET V) : M (AnyIET V × List (ErasedLengths V) × Reader) := do
  let (p, cells, r) ← loadShared name registered cells r v.lengths
  match p with
  | none =>
    assertM (v.top.length = 0 ∧ v.bottom.length = 0)
    return (default, cells, r)
  | some a =>
    match cells[a]? with
    | none => .error .ub
    | some x =>
      let E ← IET.mk? (SLengths.ops (A x.1)) v.top v.bottom x.2
      return (mk x.1 E a, cells, r)

/-- Saving several IETs to the same archive. (cereal.hpp:66-92) -/
def saveAll (name : K → String) (registered : List K) (cells : List (ErasedLengths V)) : Writer → List (AnyIET V) → M (List (SavedIET V))
  | _, [] => .ok []
  | w, o :: os => do
    let (v, w) ← save name registered cells w o
    return v :: (← saveAll name registered cells w os)

/-- Loading several IETs from the same archive. (cereal.hpp:66-92) -/
def loadAll [∀ k, CommRing (V k)] [∀ k, LinearOrder (V k)] (A : ∀ k, Arith (V k)) (name : K → String) (registered : List K) :
    List (ErasedLengths V) → Reader → List (SavedIET V) → M (List (AnyIET V) × List (ErasedLengths V))
  | cells, _, [] => .ok ([], cells)
  | cells, r, v :: vs => do
    let (o, cells, r) ← load A name registered cells r v
    let (os, cells) ← loadAll A name registered cells r vs
    return (o :: os, cells)

end AnyIET

end Verif
