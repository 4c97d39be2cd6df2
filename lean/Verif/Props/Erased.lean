import Verif.Model.Erased
import Mathlib.Data.List.Basic
import Mathlib.Data.Rat.Defs

/-!
# C94: saving and loading lengths of any type
-/

namespace Verif

set_option linter.unusedSectionVars false

variable {K : Type} [DecidableEq K] {V : K → Type} {name : K → String} {registered registered' : List K}

theorem mapM_ok {α β : Type} {f : α → M β} {g : α → β} {l : List α} (h : ∀ a ∈ l, f a = .ok (g a)) : l.mapM f = .ok (l.map g) := by
  induction l with
  | nil => rfl
  | cons a l ih =>
    rw [List.mapM_cons, h a (by simp), ih (fun b hb => h b (List.mem_cons_of_mem _ hb))]
    rfl

theorem loadLengths_saveLengths {T : Type} (s : SLengths T) : Value.loadLengths (Value.saveLengths s) = .ok s := by
  have h1 : (s.lengths.map Value.number).mapM (Value.loadNumber (T := T)) = .ok s.lengths := by
    rw [List.mapM_map]
    have := mapM_ok (f := Value.loadNumber (T := T) ∘ Value.number) (g := id) (l := s.lengths) (fun a _ => rfl)
    rw [List.map_id] at this
    exact this
  have h2 : (s.stack.map Value.saveLabel).mapM (Value.loadLabel (T := T)) = .ok s.stack := by
    rw [List.mapM_map]
    have := mapM_ok (f := Value.loadLabel (T := T) ∘ Value.saveLabel) (g := id) (l := s.stack) (fun a _ => rfl)
    rw [List.map_id] at this
    exact this
  simp only [Value.saveLengths, Value.loadLengths, Value.readList, h1, h2]
  rfl

theorem loadUnerased_saveUnerased (k : K) (s : SLengths (V k)) : loadUnerased k (saveUnerased k s) = .ok s := by
  unfold loadUnerased saveUnerased
  rw [loadLengths_saveLengths]
  have : (s.lengths.map (Sigma.mk k)).mapM (castNumber k) = .ok s.lengths := by
    rw [List.mapM_map]
    have := mapM_ok (f := castNumber (V := V) k ∘ Sigma.mk k) (g := id) (l := s.lengths) (fun a _ => by simp [castNumber])
    rw [List.map_id] at this
    exact this
  show (do let lengths ← (s.lengths.map (Sigma.mk k)).mapM (castNumber k); return (⟨s.stack, lengths⟩ : SLengths (V k))) = _
  rw [this]
  rfl

/-- The names read from an archive after the names `names` have been written. -/
def readNames (names : List String) : List (ℕ × String) := names.zipIdx.map (fun p => (p.2 + 1, p.1))

theorem lookup_zipIdx (names : List String) (m i : ℕ) (h : i < names.length) :
    ((names.zipIdx m).map (fun p => (p.2 + 1, p.1))).lookup (m + i + 1) = some names[i] := by
  induction names generalizing m i with
  | nil => simp at h
  | cons n names ih =>
    rw [List.zipIdx_cons, List.map_cons, List.lookup_cons]
    cases i with
    | zero => simp
    | succ i =>
      have : (m + (i + 1) + 1 == m + 1) = false := by simp
      simp only [this]
      have := ih (m + 1) i (by simpa using h)
      rw [show m + 1 + i + 1 = m + (i + 1) + 1 by omega] at this
      simpa using this

theorem readNames_lookup (names : List String) {n : String} (h : n ∈ names) : (readNames names).lookup (names.idxOf n + 1) = some n := by
  have := lookup_zipIdx names 0 (names.idxOf n) (List.idxOf_lt_length_of_mem h)
  rw [List.getElem_idxOf, zero_add] at this
  exact this

theorem readNames_append (names : List String) (n : String) : readNames (names ++ [n]) = readNames names ++ [(names.length + 1, n)] := by
  simp [readNames, List.zipIdx_append]

theorem find_registered (hn : Function.Injective name) {k : K} (hk : k ∈ registered) : registered.find? (fun k' => name k' = name k) = some k := by
  induction registered with
  | nil => simp at hk
  | cons k' l ih =>
    by_cases e : k' = k
    · subst e; simp
    · have : decide (name k' = name k) = false := by simpa using fun h => e (hn h)
      rw [List.find?_cons, this]
      exact ih ((List.mem_cons.mp hk).resolve_left (Ne.symm e))

theorem find_unregistered (hn : Function.Injective name) {k : K} (hk : k ∉ registered) : registered.find? (fun k' => name k' = name k) = none := by
  rw [List.find?_eq_none]
  intro k' hk' e
  exact hk (hn (by simpa using e) ▸ hk')

/-- What is written for some lengths after the names `names`. -/
theorem saveErased_spec {names : List String} {x : ErasedLengths V} (hx : x.1 ∈ registered) :
    ∃ p names', saveErased name registered names x = .ok (p, names') ∧ p.id ≠ 0 ∧ p.data = some (saveUnerased x.1 x.2) ∧
      loadName (readNames names) p = .ok (name x.1, readNames names') := by
  unfold saveErased
  rw [if_pos hx]
  by_cases h : name x.1 ∈ names
  · rw [if_pos h]
    exact ⟨_, _, rfl, by simp, rfl, by simp [loadName, readNames_lookup names h]⟩
  · rw [if_neg h]
    exact ⟨_, _, rfl, by simp, rfl, by simp [loadName, readNames_append]⟩

theorem roundTrip (hn : Function.Injective name) (xs : List (ErasedLengths V)) (names : List String) (h : ∀ x ∈ xs, x.1 ∈ registered) :
    ∃ ps, saveErasedAll name registered names xs = .ok ps ∧
      ((∀ x ∈ xs, x.1 ∈ registered') → loadErasedAll name registered' (readNames names) ps = .ok xs) ∧
      ((∃ x ∈ xs, x.1 ∉ registered') → loadErasedAll name registered' (readNames names) ps = .error .invalidArgument) := by
  induction xs generalizing names with
  | nil => exact ⟨[], rfl, fun _ => rfl, by simp⟩
  | cons x xs ih =>
    obtain ⟨p, names', h1, h2, h3, h4⟩ := saveErased_spec (name := name) (names := names) (h x (by simp))
    obtain ⟨ps, i1, i2, i3⟩ := ih names' (fun y hy => h y (List.mem_cons_of_mem _ hy))
    refine ⟨p :: ps, ?_, ?_, ?_⟩
    · simp only [saveErasedAll, h1]
      show (do return p :: (← saveErasedAll name registered names' xs)) = _
      rw [i1]
      rfl
    · intro hr
      have e : loadErased name registered' (readNames names) p = .ok (x, readNames names') := by
        simp only [loadErased, if_neg h2, h4, h3]
        show (match registered'.find? (fun k => name k = name x.1) with | none => _ | some k => _) = _
        rw [find_registered hn (hr x (by simp))]
        simp only [loadUnerased_saveUnerased]
        rfl
      simp only [loadErasedAll, e]
      show (do return x :: (← loadErasedAll name registered' (readNames names') ps)) = _
      rw [i2 (fun y hy => hr y (List.mem_cons_of_mem _ hy))]
      rfl
    · intro hr
      by_cases hx : x.1 ∈ registered'
      · have e : loadErased name registered' (readNames names) p = .ok (x, readNames names') := by
          simp only [loadErased, if_neg h2, h4, h3]
          show (match registered'.find? (fun k => name k = name x.1) with | none => _ | some k => _) = _
          rw [find_registered hn hx]
          simp only [loadUnerased_saveUnerased]
          rfl
        simp only [loadErasedAll, e]
        show (do return x :: (← loadErasedAll name registered' (readNames names') ps)) = _
        rw [i3 (by
          obtain ⟨y, hy, hy'⟩ := hr
          rcases List.mem_cons.mp hy with rfl | hy
          · exact absurd hx hy'
          · exact ⟨y, hy, hy'⟩)]
        rfl
      · have e : loadErased name registered' (readNames names) p = .error .invalidArgument := by
          simp only [loadErased, if_neg h2, h4, h3]
          show (match registered'.find? (fun k => name k = name x.1) with | none => _ | some k => _) = _
          rw [find_unregistered hn hx]
          rfl
        simp only [loadErasedAll, e]
        rfl

/-- **C94** Lengths of several types can be saved to one archive if their types are registered. If these types are also registered in the program that reads the archive,
possibly together with other types and in another order, then the same lengths with the same types are read in the same order. -/
theorem C94_round_trip (hn : Function.Injective name) (xs : List (ErasedLengths V)) (h : ∀ x ∈ xs, x.1 ∈ registered) (h' : ∀ x ∈ xs, x.1 ∈ registered') :
    ∃ ps, saveErasedAll name registered [] xs = .ok ps ∧ loadErasedAll name registered' [] ps = .ok xs := by
  obtain ⟨ps, h1, h2, -⟩ := roundTrip (registered' := registered') hn xs [] h
  exact ⟨ps, h1, h2 h'⟩

/-- **C94** If any of the types is not registered when loading then there is an exception, never undefined behaviour. -/
theorem C94_unknown (hn : Function.Injective name) (xs : List (ErasedLengths V)) (h : ∀ x ∈ xs, x.1 ∈ registered) {x : ErasedLengths V} (hx : x ∈ xs)
    (h' : x.1 ∉ registered') :
    ∃ ps, saveErasedAll name registered [] xs = .ok ps ∧ loadErasedAll name registered' [] ps = .error .invalidArgument := by
  obtain ⟨ps, h1, -, h2⟩ := roundTrip (registered' := registered') hn xs [] h
  exact ⟨ps, h1, h2 ⟨x, hx, h'⟩⟩

/-- **C94** If any of the types is not registered when saving then there is an exception. -/
theorem C94_unregistered (xs : List (ErasedLengths V)) {x : ErasedLengths V} (hx : x ∈ xs) (h : x.1 ∉ registered) :
    saveErasedAll name registered [] xs = .error .invalidArgument := by
  generalize ([] : List String) = names
  induction xs generalizing names with
  | nil => simp at hx
  | cons y xs ih =>
    by_cases hy : y.1 ∈ registered
    · obtain ⟨p, names', h1, -⟩ := saveErased_spec (name := name) (names := names) hy
      have hx' : x ∈ xs := by
        rcases List.mem_cons.mp hx with rfl | hx
        · exact absurd hy h
        · exact hx
      simp only [saveErasedAll, h1]
      show (do return p :: (← saveErasedAll name registered names' xs)) = _
      rw [ih hx']
      rfl
    · simp only [saveErasedAll, saveErased, if_neg hy]
      rfl

/-- **C94** An archive that contains a null pointer instead of lengths leads to undefined behaviour; by the above such archives are never written. -/
theorem C94_null (p : PolyPtr V) (hp : p.id = 0) (ps : List (PolyPtr V)) (names : List (ℕ × String)) : loadErasedAll name registered names (p :: ps) = .error .ub := by
  simp only [loadErasedAll, loadErased, if_pos hp]
  rfl

/-! ### An example with integers and rationals -/

namespace Examples

/-- Two types of numbers. -/
def numberTypes : Bool → Type
  | true => ℤ
  | false => ℚ

/-- Their names. -/
def typeNames : Bool → String
  | true => "Lengths<int>"
  | false => "Lengths<mpq_class>"

theorem typeNames_injective : Function.Injective typeNames := by
  intro a b h
  cases a <;> cases b <;> first | rfl | (revert h; decide)

/-- Lengths of both types. -/
def mixedLengths : List (ErasedLengths numberTypes) :=
  [⟨true, ⟨[], ([1, 2] : List ℤ)⟩⟩, ⟨false, ⟨[0], ([1 / 2] : List ℚ)⟩⟩, ⟨true, ⟨[], ([3] : List ℤ)⟩⟩]

/-- Types are registered in another order when loading. -/
example : ∃ ps, saveErasedAll typeNames [true, false] [] mixedLengths = .ok ps ∧ loadErasedAll typeNames [false, true] [] ps = .ok mixedLengths :=
  C94_round_trip typeNames_injective _ (by intro x _; rcases x with ⟨(_ | _), _⟩ <;> simp) (by intro x _; rcases x with ⟨(_ | _), _⟩ <;> simp)

/-- The names are written once. -/
example : (saveErasedAll typeNames [true, false] [] mixedLengths).map (List.map (fun p => (p.id, p.name))) =
    .ok [(1, some "Lengths<int>"), (2, some "Lengths<mpq_class>"), (1, none)] := by
  decide +kernel

/-- The rationals are not registered when loading. -/
example : ∃ ps, saveErasedAll typeNames [true, false] [] mixedLengths = .ok ps ∧ loadErasedAll typeNames [true] [] ps = .error .invalidArgument :=
  C94_unknown typeNames_injective _ (by intro x _; rcases x with ⟨(_ | _), _⟩ <;> simp) (x := ⟨false, ⟨[0], ([1 / 2] : List ℚ)⟩⟩) (by simp [mixedLengths]) (by simp)

end Examples

end Verif
