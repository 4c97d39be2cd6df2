import Verif.Model.Archive
import Verif.Props.Erased
import Verif.Proofs.Serialize
import Verif.Examples
import Mathlib.Data.Finset.Card

/-!
# C100: archives with IETs whose lengths have several types
-/

namespace Verif

set_option linter.unusedSectionVars false

variable {K : Type} [DecidableEq K] {V : K → Type} {name : K → String} {registered registered' : List K}

theorem loadErased_known (hn : Function.Injective name) {names names' : List String} {x : ErasedLengths V} {p : PolyPtr V} (hx : x.1 ∈ registered')
    (h2 : p.id ≠ 0) (h3 : p.data = some (saveUnerased x.1 x.2)) (h4 : loadName (readNames names) p = .ok (name x.1, readNames names')) :
    loadErased name registered' (readNames names) p = .ok (x, readNames names') := by
  simp only [loadErased, if_neg h2, h4, h3]
  show (match registered'.find? (fun k => name k = name x.1) with | none => _ | some k => _) = _
  rw [find_registered hn hx]
  simp only [loadUnerased_saveUnerased]
  rfl

theorem loadErased_unknown (hn : Function.Injective name) {names names' : List String} {x : ErasedLengths V} {p : PolyPtr V} (hx : x.1 ∉ registered')
    (h2 : p.id ≠ 0) (h4 : loadName (readNames names) p = .ok (name x.1, readNames names')) :
    loadErased name registered' (readNames names) p = .error .invalidArgument := by
  simp only [loadErased, if_neg h2, h4]
  show (match registered'.find? (fun k => name k = name x.1) with | none => _ | some k => _) = _
  rw [find_unregistered hn hx]
  rfl

/-- What is written for the pointer of an IET, and the state of the archive afterwards. -/
def Written (name : K → String) (cells : List (ErasedLengths V)) (w : Writer) (o : AnyIET V) (p : SharedPtr V) (w' : Writer) : Prop :=
  (o = .default ∧ p = ⟨0, none⟩ ∧ w' = w) ∨
  (∃ (k : K) (E : IET (V k)) (a : ℕ), o = .mk k E a ∧ a ∈ w.seen ∧ p = ⟨w.seen.idxOf a + 1, none⟩ ∧ w' = w) ∨
  (∃ (k : K) (E : IET (V k)) (a : ℕ) (s : SLengths (V k)) (q : PolyPtr V) (names' : List String), o = .mk k E a ∧ a ∉ w.seen ∧ cells[a]? = some ⟨k, s⟩ ∧ p = ⟨w.seen.length + 1, some q⟩ ∧ w' = ⟨w.seen ++ [a], names'⟩ ∧
    q.id ≠ 0 ∧ q.data = some (saveUnerased k s) ∧ loadName (readNames w.names) q = .ok (name k, readNames names'))

/-- The lengths of an IET have the type that they should have. -/
def HasCell (cells : List (ErasedLengths V)) (o : AnyIET V) : Prop := ∀ k E a, o = .mk k E a → ∃ s, cells[a]? = some ⟨k, s⟩

theorem save_written {cells : List (ErasedLengths V)} {o : AnyIET V} (w : Writer) (hc : HasCell cells o) (hk : ∀ k E a, o = .mk k E a → k ∈ registered) :
    ∃ p w', AnyIET.save name registered cells w o = .ok (⟨o.top, o.bottom, p⟩, w') ∧ Written name cells w o p w' := by
  cases o with
  | default => exact ⟨_, _, rfl, .inl ⟨rfl, rfl, rfl⟩⟩
  | mk k E a =>
    by_cases ha : a ∈ w.seen
    · refine ⟨_, _, ?_, .inr (.inl ⟨k, E, a, rfl, ha, rfl, rfl⟩)⟩
      simp only [AnyIET.save, AnyIET.lengths, saveShared, if_pos ha]
      rfl
    · obtain ⟨s, hs⟩ := hc k E a rfl
      obtain ⟨q, names', h1, h2, h3, h4⟩ := saveErased_spec (name := name) (names := w.names) (x := (⟨k, s⟩ : ErasedLengths V)) (hk k E a rfl)
      refine ⟨_, _, ?_, .inr (.inr ⟨k, E, a, s, q, names', rfl, ha, hs, rfl, rfl, h2, h3, h4⟩)⟩
      simp only [AnyIET.save, AnyIET.lengths, saveShared, if_neg ha, hs, h1]
      rfl

theorem save_unregistered {cells : List (ErasedLengths V)} {w : Writer} {k : K} {E : IET (V k)} {a : ℕ} (hc : HasCell cells (.mk k E a)) (hk : k ∉ registered)
    (ha : a ∉ w.seen) : AnyIET.save name registered cells w (.mk k E a) = .error .invalidArgument := by
  obtain ⟨s, hs⟩ := hc k E a rfl
  simp only [AnyIET.save, AnyIET.lengths, saveShared, if_neg ha, hs, saveErased, if_neg hk]
  rfl

section

variable [∀ k, CommRing (V k)] [∀ k, LinearOrder (V k)] [∀ k, IsStrictOrderedRing (V k)] {A : ∀ k, Arith (V k)} {d : K → ℕ} {c : ∀ k, V k →+ (Fin (d k) → ℚ)}
  {cells cells₀ cells₁ : List (ErasedLengths V)}

/-- IETs that can be saved and loaded: default-constructed ones, and valid ones. -/
def AnyIET.Saveable (hA : ∀ k, (A k).Lawful (c k)) (cells : List (ErasedLengths V)) : AnyIET V → Prop
  | .default => True
  | .mk k E a => ∃ s, cells[a]? = some ⟨k, s⟩ ∧ (SLengths.lawful (hA k)).Ok E s

theorem AnyIET.Saveable.hasCell {hA : ∀ k, (A k).Lawful (c k)} {o : AnyIET V} (h : o.Saveable hA cells) : HasCell cells o := by
  rintro k E a rfl
  obtain ⟨s, h1, -⟩ := h
  exact ⟨s, h1⟩

/-- The IET that has been saved, and the one that has been loaded. -/
def LoadedAny (o o' : AnyIET V) (W R : List ℕ) : Prop :=
  (o = .default ∧ o' = .default) ∨ ∃ (k : K) (E : IET (V k)) (a a' i : ℕ), o = .mk k E a ∧ o' = .mk k (IET.fresh E.top E.bottom) a' ∧ W[i]? = some a ∧ R[i]? = some a'

theorem LoadedAny.mono {o o' : AnyIET V} {W R W' R' : List ℕ} (h : LoadedAny o o' W R) (hW : W <+: W') (hR : R <+: R') : LoadedAny o o' W' R' :=
  h.imp id (fun ⟨k, E, a, a', i, h1, h2, h3, h4⟩ => ⟨k, E, a, a', i, h1, h2, getElem?_of_prefix hW h3, getElem?_of_prefix hR h4⟩)

theorem load_of_shared (hA : ∀ k, (A k).Lawful (c k)) {r r' : Reader} {p : SharedPtr V} {k : K} {E : IET (V k)} {a' : ℕ} {s : SLengths (V k)}
    {cells₂ : List (ErasedLengths V)} (h : loadShared name registered' cells₁ r p = .ok (some a', cells₂, r')) (hc : cells₂[a']? = some ⟨k, s⟩)
    (ho : (SLengths.lawful (hA k)).Ok E s) :
    AnyIET.load A name registered' cells₁ r ⟨E.top, E.bottom, p⟩ = .ok (.mk k (IET.fresh E.top E.bottom) a', cells₂, r') := by
  simp only [AnyIET.load, h]
  show (match cells₂[a']? with | none => _ | some x => _) = _
  rw [hc]
  simp only
  rw [mk?_spec (SLengths.lawful (hA k)) ho.inv ho.valid ho.dom]
  rfl

theorem load_written (hn : Function.Injective name) (hA : ∀ k, (A k).Lawful (c k)) {w w' : Writer} {R : List ℕ} (h : Link cells cells₀ w.seen R cells₁)
    {o : AnyIET V} (ho : o.Saveable hA cells) (hk : ∀ k E a, o = .mk k E a → k ∈ registered') {p : SharedPtr V}
    (hw : Written name cells w o p w') :
    ∃ o' cells₂ R', AnyIET.load A name registered' cells₁ ⟨readSeen R, readNames w.names⟩ ⟨o.top, o.bottom, p⟩ = .ok (o', cells₂, ⟨readSeen R', readNames w'.names⟩) ∧
      Link cells cells₀ w'.seen R' cells₂ ∧ w.seen <+: w'.seen ∧ R <+: R' ∧ LoadedAny o o' w'.seen R' := by
  rcases hw with ⟨rfl, rfl, rfl⟩ | ⟨k, E, a, rfl, ha, rfl, rfl⟩ | ⟨k, E, a, s, q, names', rfl, ha, hc, rfl, rfl, h2, h3, h4⟩
  · exact ⟨.default, cells₁, R, rfl, h, List.prefix_rfl, List.prefix_rfl, .inl ⟨rfl, rfl⟩⟩
  · obtain ⟨s, hc, hok⟩ := ho
    have hi : w'.seen.idxOf a < w'.seen.length := List.idxOf_lt_length_of_mem ha
    have hi' : w'.seen.idxOf a < R.length := h.length ▸ hi
    have e1 : w'.seen[w'.seen.idxOf a]? = some a := by rw [List.getElem?_eq_getElem hi, List.getElem_idxOf hi]
    have e2 : R[w'.seen.idxOf a]? = some R[w'.seen.idxOf a] := List.getElem?_eq_getElem hi'
    refine ⟨_, cells₁, R, load_of_shared hA (a' := R[w'.seen.idxOf a]) (s := s) ?_ ?_ hok, h, List.prefix_rfl, List.prefix_rfl,
      .inr ⟨k, E, a, _, _, rfl, rfl, e1, e2⟩⟩
    · simp only [loadShared]
      rw [if_neg (by simp), readSeen_lookup, e2]
    · rw [h.same _ _ _ e1 e2, hc]
  · obtain ⟨s', hc', hok⟩ := ho
    have : s' = s := by
      rw [hc] at hc'
      injection hc' with e
      injection e with _ e
      exact e.symm
    subst this
    refine ⟨_, cells₁ ++ [⟨k, s'⟩], R ++ [cells₁.length], load_of_shared hA (a' := cells₁.length) (s := s') ?_ (by simp) hok,
      h.push ha hc, List.prefix_append _ _, List.prefix_append _ _, .inr ⟨k, E, a, _, w.seen.length, rfl, rfl, by simp, ?_⟩⟩
    · simp only [loadShared]
      rw [loadErased_known (x := (⟨k, s'⟩ : ErasedLengths V)) hn (hk k E a rfl) h2 h3 h4, readSeen_push, h.length]
      rfl
    · rw [h.length]
      simp

theorem load_unknown (hn : Function.Injective name) {w w' : Writer} {r : List (ℕ × ℕ)} {k : K} {E : IET (V k)} {a : ℕ}
    (hk : k ∉ registered') (ha : a ∉ w.seen) {p : SharedPtr V} (hw : Written name cells w (.mk k E a) p w') :
    AnyIET.load A name registered' cells₁ ⟨r, readNames w.names⟩ ⟨E.top, E.bottom, p⟩ = .error .invalidArgument := by
  rcases hw with ⟨e, -, -⟩ | ⟨k', E', a', e, ha', -⟩ | ⟨k', E', a', s, q, names', e, -, hc, rfl, rfl, h2, h3, h4⟩
  · cases e
  · cases e
    exact absurd ha' ha
  · cases e
    simp only [AnyIET.load, loadShared]
    rw [loadErased_unknown (x := (⟨k, s⟩ : ErasedLengths V)) hn hk h2 h4]
    rfl

theorem archive_round_trip (hn : Function.Injective name) (hA : ∀ k, (A k).Lawful (c k)) : ∀ (os : List (AnyIET V)) {w : Writer} {R : List ℕ}
    {cells₁ : List (ErasedLengths V)}, Link cells cells₀ w.seen R cells₁ → (∀ o ∈ os, o.Saveable hA cells) →
    (∀ o ∈ os, ∀ k E a, o = .mk k E a → k ∈ registered ∧ k ∈ registered') →
    ∃ vs os' cells₂ W' R', AnyIET.saveAll name registered cells w os = .ok vs ∧ AnyIET.loadAll A name registered' cells₁ ⟨readSeen R, readNames w.names⟩ vs = .ok (os', cells₂) ∧
      Link cells cells₀ W' R' cells₂ ∧ w.seen <+: W' ∧ R <+: R' ∧ List.Forall₂ (fun o o' => LoadedAny o o' W' R') os os'
  | [], w, R, cells₁, h, _, _ => ⟨[], [], cells₁, w.seen, R, rfl, rfl, h, List.prefix_rfl, List.prefix_rfl, .nil⟩
  | o :: os, w, R, cells₁, h, ho, hk => by
    obtain ⟨p, w', h1, hw⟩ := save_written (name := name) (registered := registered) w (ho o (by simp)).hasCell (fun k E a e => (hk o (by simp) k E a e).1)
    obtain ⟨o', cells₂, R₁, h2, h3, h5, h6, h7⟩ := load_written hn hA h (ho o (by simp)) (fun k E a e => (hk o (by simp) k E a e).2) hw
    obtain ⟨vs, os', cells₃, W', R', g1, g2, g3, g4, g5, g6⟩ := archive_round_trip hn hA os h3 (fun o ho' => ho o (by simp [ho'])) (fun o ho' => hk o (by simp [ho']))
    refine ⟨⟨o.top, o.bottom, p⟩ :: vs, o' :: os', cells₃, W', R', ?_, ?_, g3, h5.trans g4, h6.trans g5, .cons (h7.mono g4 g5) g6⟩
    · unfold AnyIET.saveAll
      rw [h1, ok_bind]
      simp only
      rw [g1, ok_bind]
      rfl
    · unfold AnyIET.loadAll
      rw [h2, ok_bind]
      simp only
      rw [g2, ok_bind]
      rfl

/-- **C100** IETs can be saved to one archive even if their lengths have different types, provided that these types are registered. If the types are also registered in the program that reads
the archive, then the same IETs are read in the same order: they have the same labels, lengths of the same type with the same values, are not swapped and have empty caches. Two of them
share their lengths exactly if the original ones did. -/
theorem C100_round_trip (hn : Function.Injective name) (hA : ∀ k, (A k).Lawful (c k)) (cells cells₀ : List (ErasedLengths V)) (os : List (AnyIET V))
    (ho : ∀ o ∈ os, o.Saveable hA cells) (hk : ∀ k E a, AnyIET.mk k E a ∈ os → k ∈ registered) (hk' : ∀ k E a, AnyIET.mk k E a ∈ os → k ∈ registered') :
    ∃ vs os' cells', AnyIET.saveAll name registered cells ⟨[], []⟩ os = .ok vs ∧ AnyIET.loadAll A name registered' cells₀ ⟨[], []⟩ vs = .ok (os', cells') ∧
      cells₀ <+: cells' ∧ os'.length = os.length ∧
      (∀ (i : ℕ), os[i]? = some .default → os'[i]? = some .default) ∧
      (∀ (i : ℕ) (k : K) (E : IET (V k)) (a : ℕ), os[i]? = some (.mk k E a) →
        ∃ a', os'[i]? = some (.mk k (IET.fresh E.top E.bottom) a') ∧ cells₀.length ≤ a' ∧ cells'[a']? = cells[a]?) ∧
      (∀ (i j : ℕ) (oi oj oi' oj' : AnyIET V), os[i]? = some oi → os[j]? = some oj → os'[i]? = some oi' → os'[j]? = some oj' →
        (oi'.lengths = oj'.lengths ↔ oi.lengths = oj.lengths)) := by
  have h0 : Link cells cells₀ [] [] cells₀ := ⟨rfl, by simp, by simp, by simp, List.prefix_rfl, by simp⟩
  obtain ⟨vs, os', cells', W, R, h1, h2, h3, -, -, h4⟩ := archive_round_trip (w := ⟨[], []⟩) (R := []) hn hA os h0 ho
    (fun o h k E a e => ⟨hk k E a (e ▸ h), hk' k E a (e ▸ h)⟩)
  obtain ⟨h5, h6⟩ := List.forall₂_iff_get.1 h4
  have key : ∀ (i : ℕ) (o o' : AnyIET V), os[i]? = some o → os'[i]? = some o' → LoadedAny o o' W R := by
    intro i o o' hi hi'
    obtain ⟨l1, e1⟩ := List.getElem?_eq_some_iff.1 hi
    obtain ⟨l2, e2⟩ := List.getElem?_eq_some_iff.1 hi'
    have := h6 i l1 l2
    simp only [List.get_eq_getElem, e1, e2] at this
    exact this
  have ex : ∀ (i : ℕ) (o : AnyIET V), os[i]? = some o → ∃ o', os'[i]? = some o' := by
    intro i o hi
    have := (List.getElem?_eq_some_iff.1 hi).1
    exact ⟨os'[i]'(h5 ▸ this), List.getElem?_eq_getElem _⟩
  refine ⟨vs, os', cells', h1, h2, h3.pre, h5.symm, ?_, ?_, ?_⟩
  · intro i hi
    obtain ⟨o', hi'⟩ := ex i _ hi
    rcases key i _ o' hi hi' with ⟨-, rfl⟩ | ⟨k, E, a, a', j, e, -⟩
    · exact hi'
    · cases e
  · intro i k E a hi
    obtain ⟨o', hi'⟩ := ex i _ hi
    rcases key i _ o' hi hi' with ⟨e, -⟩ | ⟨k, E, a, a', j, e, rfl, q1, q2⟩
    · cases e
    · cases e
      exact ⟨a', hi', (h3.new a' (List.mem_of_getElem? q2)).1, h3.same j a a' q1 q2⟩
  · intro i j oi oj oi' oj' hi hj hi' hj'
    rcases key i oi oi' hi hi' with ⟨rfl, rfl⟩ | ⟨k, E, a, a', m, rfl, rfl, p3, p4⟩ <;>
      rcases key j oj oj' hj hj' with ⟨rfl, rfl⟩ | ⟨k', E', b, b', m', rfl, rfl, q3, q4⟩
    · simp [AnyIET.lengths]
    · simp [AnyIET.lengths]
    · simp [AnyIET.lengths]
    · simp only [AnyIET.lengths, Option.some.injEq]
      obtain ⟨l1, e1⟩ := List.getElem?_eq_some_iff.1 p3
      obtain ⟨l2, e2⟩ := List.getElem?_eq_some_iff.1 p4
      obtain ⟨l3, e3⟩ := List.getElem?_eq_some_iff.1 q3
      obtain ⟨l4, e4⟩ := List.getElem?_eq_some_iff.1 q4
      constructor
      · intro e
        have : m = m' := (List.Nodup.getElem_inj_iff h3.nodup').1 (by rw [e2, e4, e])
        subst this
        rw [← e1, ← e3]
      · intro e
        have : m = m' := (List.Nodup.getElem_inj_iff h3.nodup).1 (by rw [e1, e3, e])
        subst this
        rw [← e2, ← e4]

theorem Written.seen {cells : List (ErasedLengths V)} {w w' : Writer} {o : AnyIET V} {p : SharedPtr V} (hw : Written name cells w o p w') {P : ErasedLengths V → Prop}
    (h : ∀ a ∈ w.seen, ∀ x, cells[a]? = some x → P x) (ho : ∀ k E a s, o = .mk k E a → P ⟨k, s⟩) : ∀ a ∈ w'.seen, ∀ x, cells[a]? = some x → P x := by
  rcases hw with ⟨rfl, rfl, rfl⟩ | ⟨k, E, a, rfl, ha, rfl, rfl⟩ | ⟨k, E, a, s, q, names', rfl, ha, hc, rfl, rfl, h2, h3, h4⟩
  · exact h
  · exact h
  · intro b hb x hx
    rcases List.mem_append.mp hb with hb | hb
    · exact h b hb x hx
    · rw [List.mem_singleton] at hb
      subst hb
      rw [hc] at hx
      cases hx
      exact ho k E b s rfl

theorem saveAll_ok {cells : List (ErasedLengths V)} : ∀ (os : List (AnyIET V)) (w : Writer), (∀ o ∈ os, HasCell cells o) →
    (∀ o ∈ os, ∀ k E a, o = .mk k E a → k ∈ registered) → ∃ vs, AnyIET.saveAll name registered cells w os = .ok vs
  | [], _, _, _ => ⟨[], rfl⟩
  | o :: os, w, hc, hk => by
    obtain ⟨p, w', h1, -⟩ := save_written (name := name) (registered := registered) w (hc o (by simp)) (hk o (by simp))
    obtain ⟨vs, h2⟩ := saveAll_ok os w' (fun o ho => hc o (by simp [ho])) (fun o ho => hk o (by simp [ho]))
    refine ⟨⟨o.top, o.bottom, p⟩ :: vs, ?_⟩
    unfold AnyIET.saveAll
    rw [h1, ok_bind]
    simp only
    rw [h2, ok_bind]
    rfl

theorem archive_unknown (hn : Function.Injective name) (hA : ∀ k, (A k).Lawful (c k)) : ∀ (os : List (AnyIET V)) {w : Writer} {R : List ℕ}
    {cells₁ : List (ErasedLengths V)}, Link cells cells₀ w.seen R cells₁ → (∀ a ∈ w.seen, ∀ x, cells[a]? = some x → x.1 ∈ registered') →
    (∀ o ∈ os, o.Saveable hA cells) → (∀ o ∈ os, ∀ k E a, o = .mk k E a → k ∈ registered) → (∃ k E a, AnyIET.mk k E a ∈ os ∧ k ∉ registered') →
    ∃ vs, AnyIET.saveAll name registered cells w os = .ok vs ∧ AnyIET.loadAll A name registered' cells₁ ⟨readSeen R, readNames w.names⟩ vs = .error .invalidArgument
  | [], _, _, _, _, _, _, _, ⟨_, _, _, h, _⟩ => by simp at h
  | o :: os, w, R, cells₁, h, hs, ho, hk, hu => by
    obtain ⟨p, w', h1, hw⟩ := save_written (name := name) (registered := registered) w (ho o (by simp)).hasCell (hk o (by simp))
    by_cases hk' : ∀ k E a, o = .mk k E a → k ∈ registered'
    · obtain ⟨o', cells₂, R', h2, h3, -⟩ := load_written hn hA h (ho o (by simp)) hk' hw
      obtain ⟨vs, g1, g2⟩ := archive_unknown hn hA os h3 (hw.seen (P := fun x => x.1 ∈ registered') hs (fun k E a _ e => hk' k E a e))
        (fun o ho' => ho o (by simp [ho'])) (fun o ho' => hk o (by simp [ho'])) (by
          obtain ⟨k, E, a, q1, q2⟩ := hu
          rcases List.mem_cons.mp q1 with q1 | q1
          · exact absurd (hk' k E a q1.symm) q2
          · exact ⟨k, E, a, q1, q2⟩)
      refine ⟨⟨o.top, o.bottom, p⟩ :: vs, ?_, ?_⟩
      · unfold AnyIET.saveAll
        rw [h1, ok_bind]
        simp only
        rw [g1, ok_bind]
        rfl
      · unfold AnyIET.loadAll
        rw [h2, ok_bind]
        simp only
        rw [g2]
        rfl
    · push Not at hk'
      obtain ⟨k, E, a, rfl, hk'⟩ := hk'
      obtain ⟨s, hs', -⟩ := ho _ (List.mem_cons_self ..)
      have ha : a ∉ w.seen := fun ha => hk' (hs a ha _ hs')
      obtain ⟨vs, g1⟩ := saveAll_ok (name := name) (registered := registered) os w' (fun o ho' => (ho o (by simp [ho'])).hasCell) (fun o ho' => hk o (by simp [ho']))
      refine ⟨⟨E.top, E.bottom, p⟩ :: vs, ?_, ?_⟩
      · unfold AnyIET.saveAll
        rw [h1, ok_bind]
        simp only
        rw [g1, ok_bind]
        rfl
      · unfold AnyIET.loadAll
        rw [load_unknown (A := A) (cells₁ := cells₁) hn hk' ha hw]
        rfl

/-- **C100** If the type of the lengths of any of the IETs is not registered in the program that reads the archive then there is an exception, never undefined behaviour. -/
theorem C100_unknown (hn : Function.Injective name) (hA : ∀ k, (A k).Lawful (c k)) (cells cells₀ : List (ErasedLengths V)) (os : List (AnyIET V))
    (ho : ∀ o ∈ os, o.Saveable hA cells) (hk : ∀ k E a, AnyIET.mk k E a ∈ os → k ∈ registered) {k : K} {E : IET (V k)} {a : ℕ} (hm : AnyIET.mk k E a ∈ os)
    (hk' : k ∉ registered') :
    ∃ vs, AnyIET.saveAll name registered cells ⟨[], []⟩ os = .ok vs ∧ AnyIET.loadAll A name registered' cells₀ ⟨[], []⟩ vs = .error .invalidArgument :=
  archive_unknown (cells₀ := cells₀) (w := ⟨[], []⟩) (R := []) hn hA os ⟨rfl, by simp, by simp, by simp, List.prefix_rfl, by simp⟩ (by simp) ho
    (fun o h k E a e => hk k E a (e ▸ h)) ⟨k, E, a, hm, hk'⟩

/-- **C100** If the type of the lengths of any of the IETs is not registered when saving then there is an exception, never undefined behaviour. -/
theorem C100_unregistered (hA : ∀ k, (A k).Lawful (c k)) (cells : List (ErasedLengths V)) (os : List (AnyIET V)) (ho : ∀ o ∈ os, o.Saveable hA cells)
    {k : K} {E : IET (V k)} {a : ℕ} (hm : AnyIET.mk k E a ∈ os) (hk : k ∉ registered) :
    AnyIET.saveAll name registered cells ⟨[], []⟩ os = .error .invalidArgument := by
  have key : ∀ (os : List (AnyIET V)) (w : Writer), (∀ a ∈ w.seen, ∀ x, cells[a]? = some x → x.1 ∈ registered) → (∀ o ∈ os, HasCell cells o) →
      (∃ k E a, AnyIET.mk k E a ∈ os ∧ k ∉ registered) → AnyIET.saveAll name registered cells w os = .error .invalidArgument := by
    intro os
    induction os with
    | nil => rintro w - - ⟨k, E, a, h, -⟩; simp at h
    | cons o os ih =>
      intro w hs hc hu
      by_cases hk' : ∀ k E a, o = .mk k E a → k ∈ registered
      · obtain ⟨p, w', h1, hw⟩ := save_written (name := name) (registered := registered) w (hc o (by simp)) hk'
        unfold AnyIET.saveAll
        rw [h1, ok_bind]
        simp only
        rw [ih w' (hw.seen (P := fun x => x.1 ∈ registered) hs (fun k E a _ e => hk' k E a e)) (fun o ho => hc o (by simp [ho])) (by
          obtain ⟨k, E, a, q1, q2⟩ := hu
          rcases List.mem_cons.mp q1 with q1 | q1
          · exact absurd (hk' k E a q1.symm) q2
          · exact ⟨k, E, a, q1, q2⟩)]
        rfl
      · push Not at hk'
        obtain ⟨k, E, a, rfl, hk'⟩ := hk'
        obtain ⟨s, hs'⟩ := hc _ (List.mem_cons_self ..) k E a rfl
        unfold AnyIET.saveAll
        rw [save_unregistered (hc _ (List.mem_cons_self ..)) hk' (fun ha => hk' (hs a ha _ hs'))]
        rfl
  exact key os ⟨[], []⟩ (by simp) (fun o h => (ho o h).hasCell) ⟨k, E, a, hm, hk⟩

/-- **C100** Lengths that are shared are written only once: an archive contains one copy of each lengths object. -/
theorem C100_once (cells : List (ErasedLengths V)) (os : List (AnyIET V)) {vs : List (SavedIET V)} (h : AnyIET.saveAll name registered cells ⟨[], []⟩ os = .ok vs) :
    (vs.filterMap (fun v => v.lengths.data)).length = (os.filterMap AnyIET.lengths).toFinset.card := by
  have key : ∀ (os : List (AnyIET V)) (w : Writer) (vs : List (SavedIET V)), AnyIET.saveAll name registered cells w os = .ok vs →
      (vs.filterMap (fun v => v.lengths.data)).length = ((os.filterMap AnyIET.lengths).toFinset \ w.seen.toFinset).card := by
    intro os
    induction os with
    | nil => intro w vs h; cases h; simp
    | cons o os ih =>
      intro w vs h
      unfold AnyIET.saveAll at h
      cases o with
      | default =>
        have e : AnyIET.save name registered cells w .default = .ok (⟨[], [], ⟨0, none⟩⟩, w) := rfl
        rw [e, ok_bind] at h
        simp only at h
        cases e2 : AnyIET.saveAll name registered cells w os with
        | error e => rw [e2] at h; cases h
        | ok vs' =>
          rw [e2] at h
          cases h
          rw [List.filterMap_cons_none rfl, List.filterMap_cons_none rfl]
          exact ih w vs' e2
      | mk k E a =>
        by_cases ha : a ∈ w.seen
        · have e : AnyIET.save name registered cells w (.mk k E a) = .ok (⟨E.top, E.bottom, ⟨w.seen.idxOf a + 1, none⟩⟩, w) := by
            simp only [AnyIET.save, AnyIET.lengths, saveShared, if_pos ha]
            rfl
          rw [e, ok_bind] at h
          simp only at h
          cases e2 : AnyIET.saveAll name registered cells w os with
          | error e => rw [e2] at h; cases h
          | ok vs' =>
            rw [e2] at h
            cases h
            simp only [List.filterMap_cons, AnyIET.lengths, List.toFinset_cons]
            rw [Finset.insert_sdiff_of_mem _ (by simpa using ha)]
            exact ih w vs' e2
        · cases hc : cells[a]? with
          | none => simp [AnyIET.save, AnyIET.lengths, saveShared, if_neg ha, hc] at h; cases h
          | some x =>
            cases hx : saveErased name registered w.names x with
            | error e => simp [AnyIET.save, AnyIET.lengths, saveShared, if_neg ha, hc, hx] at h; cases h
            | ok q =>
              obtain ⟨q, names⟩ := q
              have e : AnyIET.save name registered cells w (.mk k E a) = .ok (⟨E.top, E.bottom, ⟨w.seen.length + 1, some q⟩⟩, ⟨w.seen ++ [a], names⟩) := by
                simp only [AnyIET.save, AnyIET.lengths, saveShared, if_neg ha, hc, hx]
                rfl
              rw [e, ok_bind] at h
              simp only at h
              cases e2 : AnyIET.saveAll name registered cells ⟨w.seen ++ [a], names⟩ os with
              | error e => rw [e2] at h; cases h
              | ok vs' =>
                rw [e2] at h
                cases h
                simp only [List.filterMap_cons, AnyIET.lengths, List.toFinset_cons, List.length_cons]
                rw [ih _ vs' e2, Finset.insert_sdiff_of_notMem _ (by simpa using ha)]
                have e3 : insert a ((os.filterMap AnyIET.lengths).toFinset \ w.seen.toFinset) =
                    insert a ((os.filterMap AnyIET.lengths).toFinset \ (w.seen ++ [a]).toFinset) := by
                  ext b
                  simp only [Finset.mem_insert, Finset.mem_sdiff, List.mem_toFinset, List.mem_append, List.mem_singleton]
                  tauto
                rw [e3, Finset.card_insert_of_notMem (by simp)]
  simpa using key os ⟨[], []⟩ vs h

end

/-! ### An example with integers and rationals -/

namespace Examples

instance (k : Bool) : CommRing (numberTypes k) := match k with
  | true => inferInstanceAs (CommRing ℤ)
  | false => inferInstanceAs (CommRing ℚ)

instance (k : Bool) : LinearOrder (numberTypes k) := match k with
  | true => inferInstanceAs (LinearOrder ℤ)
  | false => inferInstanceAs (LinearOrder ℚ)

instance (k : Bool) : IsStrictOrderedRing (numberTypes k) := match k with
  | true => inferInstanceAs (IsStrictOrderedRing ℤ)
  | false => inferInstanceAs (IsStrictOrderedRing ℚ)

/-- The arithmetic of these numbers. -/
def numberArith : ∀ k, Arith (numberTypes k)
  | true => intArith
  | false => mpqArith

/-- Their coordinates. -/
def numberCoef : ∀ k, numberTypes k →+ (Fin 1 → ℚ)
  | true => intCoef
  | false => ratCoef

theorem numberArith_lawful : ∀ k, (numberArith k).Lawful (numberCoef k)
  | true => intArith_lawful
  | false => mpqArith_lawful

/-- Two lengths objects. -/
def mixedCells : List (ErasedLengths numberTypes) := [⟨true, ⟨[], ([1, 2] : List ℤ)⟩⟩, ⟨false, ⟨[], ([1 / 2, 1 / 3] : List ℚ)⟩⟩]

/-- The first and the last IET share their lengths. -/
def mixedIETs : List (AnyIET numberTypes) :=
  [.mk true (IET.fresh [0, 1] [1, 0]) 0, .default, .mk false (IET.fresh [1, 0] [0, 1]) 1, .mk true (IET.fresh [1] [1]) 0]

theorem mixedIETs_saveable : ∀ o ∈ mixedIETs, o.Saveable numberArith_lawful mixedCells := by
  intro o ho
  simp only [mixedIETs, List.mem_cons, List.not_mem_nil, or_false] at ho
  rcases ho with rfl | rfl | rfl | rfl
  · exact ⟨⟨[], ([1, 2] : List ℤ)⟩, rfl, sample_ok intArith_lawful _ _ _ (by decide)⟩
  · trivial
  · exact ⟨⟨[], ([1 / 2, 1 / 3] : List ℚ)⟩, rfl, sample_ok mpqArith_lawful _ _ _ (by decide +kernel)⟩
  · exact ⟨⟨[], ([1, 2] : List ℤ)⟩, rfl, sample_ok intArith_lawful _ _ _ (by decide)⟩

/-- The types are registered in another order when loading, there is another lengths object already. -/
example : ∃ vs os' cells', AnyIET.saveAll typeNames [true, false] mixedCells ⟨[], []⟩ mixedIETs = .ok vs ∧
    AnyIET.loadAll numberArith typeNames [false, true] [⟨true, ⟨[], ([7] : List ℤ)⟩⟩] ⟨[], []⟩ vs = .ok (os', cells') ∧ os'.length = 4 := by
  obtain ⟨vs, os', cells', h1, h2, -, h3, -⟩ := C100_round_trip (registered := [true, false]) (registered' := [false, true]) typeNames_injective numberArith_lawful mixedCells
    [⟨true, ⟨[], ([7] : List ℤ)⟩⟩] mixedIETs mixedIETs_saveable (by rintro (_ | _) <;> simp) (by rintro (_ | _) <;> simp)
  exact ⟨vs, os', cells', h1, h2, h3⟩

/-- What is loaded: the lengths of the first and the last IET have been written once, and are shared. -/
example : ((AnyIET.saveAll typeNames [true, false] mixedCells ⟨[], []⟩ mixedIETs).bind (fun vs => AnyIET.loadAll numberArith typeNames [false, true]
    [⟨true, ⟨[], ([7] : List ℤ)⟩⟩] ⟨[], []⟩ vs)).map (fun r => r.1.map (fun o => (o.top, o.bottom, o.lengths))) =
    .ok [([0, 1], [1, 0], some 1), ([], [], none), ([1, 0], [0, 1], some 2), ([1], [1], some 1)] := by
  decide +kernel

/-- The rationals are not registered when loading. -/
example : ∃ vs, AnyIET.saveAll typeNames [true, false] mixedCells ⟨[], []⟩ mixedIETs = .ok vs ∧
    AnyIET.loadAll numberArith typeNames [true] [] ⟨[], []⟩ vs = .error .invalidArgument :=
  C100_unknown typeNames_injective numberArith_lawful mixedCells [] mixedIETs mixedIETs_saveable (by rintro (_ | _) <;> simp)
    (k := false) (E := IET.fresh [1, 0] [0, 1]) (a := 1) (by simp [mixedIETs]) (by simp)

/-- The rationals are not registered when saving. -/
example : AnyIET.saveAll typeNames [true] mixedCells ⟨[], []⟩ mixedIETs = .error .invalidArgument :=
  C100_unregistered numberArith_lawful mixedCells mixedIETs mixedIETs_saveable (k := false) (E := IET.fresh [1, 0] [0, 1]) (a := 1) (by simp [mixedIETs]) (by simp)

end Examples

end Verif
