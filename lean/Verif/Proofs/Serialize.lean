import Verif.Model.Serialize
import Verif.Proofs.Sample
import Verif.Proofs.Reduce
import Verif.Proofs.Pointer
import Mathlib.Data.List.GetD

/-!
# Loading what has been saved
-/

namespace Verif

set_option linter.unusedSectionVars false

variable {T : Type}

theorem mapM_load {α β : Type} {f : β → M α} {g : α → β} (h : ∀ a, f (g a) = .ok a) : ∀ l : List α, (l.map g).mapM f = .ok l
  | [] => rfl
  | a :: l => by
    rw [List.map_cons, List.mapM_cons, h, ok_bind, mapM_load h l, ok_bind]
    rfl

theorem Value.loadLengths_save (s : SLengths T) : Value.loadLengths (Value.saveLengths s) = .ok s := by
  simp only [Value.saveLengths, Value.loadLengths, Value.readList]
  rw [mapM_load (f := Value.loadNumber) (g := Value.number) (fun _ => rfl), ok_bind, mapM_load (f := Value.loadLabel) (g := Value.saveLabel) (fun _ => rfl), ok_bind]
  rfl

/-- The state of the writer and of the reader: `W` are the addresses of the objects written so far, `R` the addresses of the objects read so far. -/
structure Link {α : Type} (cells cells₀ : List α) (W R : List ℕ) (cells' : List α) : Prop where
  length : W.length = R.length
  nodup : W.Nodup
  nodup' : R.Nodup
  new : ∀ a ∈ R, cells₀.length ≤ a ∧ a < cells'.length
  pre : cells₀ <+: cells'
  same : ∀ (k a a' : ℕ), W[k]? = some a → R[k]? = some a' → cells'[a']? = cells[a]?

/-- The object that has been saved and the object that has been loaded. -/
structure Loaded (o o' : IETObject T) (W R : List ℕ) : Prop where
  iet : o'.1 = IET.fresh o.1.top o.1.bottom
  ptr : (o.2 = none ∧ o'.2 = none) ∨ ∃ k a a' : ℕ, o.2 = some a ∧ o'.2 = some a' ∧ W[k]? = some a ∧ R[k]? = some a'

theorem getElem?_of_prefix {α : Type} {l l' : List α} (h : l <+: l') {k : ℕ} {x : α} (hk : l[k]? = some x) : l'[k]? = some x := by
  obtain ⟨r, rfl⟩ := h
  rw [List.getElem?_append_left (List.getElem?_eq_some_iff.1 hk).1, hk]

theorem Loaded.mono {o o' : IETObject T} {W R W' R' : List ℕ} (h : Loaded o o' W R) (hW : W <+: W') (hR : R <+: R') : Loaded o o' W' R' where
  iet := h.iet
  ptr := h.ptr.imp id (fun ⟨k, a, a', h1, h2, h3, h4⟩ => ⟨k, a, a', h1, h2, getElem?_of_prefix hW h3, getElem?_of_prefix hR h4⟩)

/-- An object is written, and read. -/
theorem Link.push {α : Type} {cells cells₀ cells₁ : List α} {W R : List ℕ} (h : Link cells cells₀ W R cells₁) {a : ℕ} {x : α} (ha : a ∉ W) (hc : cells[a]? = some x) :
    Link cells cells₀ (W ++ [a]) (R ++ [cells₁.length]) (cells₁ ++ [x]) := by
  refine ⟨by simp [h.length], ?_, ?_, ?_, h.pre.trans (List.prefix_append _ _), ?_⟩
  · rw [List.nodup_append]
    exact ⟨h.nodup, by simp, fun x hx y hy e => by simp at hy; subst e; exact ha (hy ▸ hx)⟩
  · rw [List.nodup_append]
    refine ⟨h.nodup', by simp, fun x hx y hy e => ?_⟩
    simp at hy
    have := (h.new x hx).2
    omega
  · intro x hx
    rw [List.mem_append] at hx
    rw [List.length_append, List.length_singleton]
    rcases hx with hx | hx
    · have := h.new x hx; exact ⟨this.1, by omega⟩
    · simp at hx; subst hx
      exact ⟨h.pre.length_le, by omega⟩
  · intro k b b' h1 h2
    by_cases hk : k < W.length
    · rw [List.getElem?_append_left hk] at h1
      rw [List.getElem?_append_left (h.length ▸ hk)] at h2
      have := h.new b' (List.mem_of_getElem? h2)
      rw [List.getElem?_append_left this.2]
      exact h.same k b b' h1 h2
    · have hk' : k = W.length := by
        have := (List.getElem?_eq_some_iff.1 h1).1
        rw [List.length_append, List.length_singleton] at this
        omega
      subst hk'
      rw [List.getElem?_append_right (by omega)] at h1
      rw [List.getElem?_append_right (by rw [h.length])] at h2
      simp at h1 h2
      rw [h.length] at h2
      simp at h2
      subst h1 h2
      rw [List.getElem?_append_right (by omega)]
      simp [hc]

/-- The table of the reader when the objects at `R` have been read. -/
def readSeen (R : List ℕ) : List (ℕ × ℕ) := (R.zipIdx.map (fun p => (p.2 + 1, p.1))).reverse

theorem readSeen_push (R : List ℕ) (a : ℕ) : readSeen (R ++ [a]) = (R.length + 1, a) :: readSeen R := by
  simp [readSeen, List.zipIdx_append]

theorem readSeen_lookup (R : List ℕ) (i : ℕ) : (readSeen R).lookup (i + 1) = R[i]? := by
  induction R using List.reverseRecOn with
  | nil => rfl
  | append_singleton R a ih =>
    rw [readSeen_push, List.lookup_cons]
    by_cases h : i = R.length
    · subst h; simp
    · have e : (i + 1 == R.length + 1) = false := by simpa using h
      simp only [e]
      rw [ih]
      by_cases h' : i < R.length
      · rw [List.getElem?_append_left h']
      · rw [List.getElem?_eq_none (by omega), List.getElem?_eq_none (by simp; omega)]

section

variable {cells cells₀ cells₁ : List (SLengths T)} {W R : List ℕ}

theorem savePtr_load (h : Link cells cells₀ W R cells₁) {p : Option ℕ} (hp : ∀ a, p = some a → a < cells.length) :
    ∃ v W' p' cells₂ R', Value.savePtr cells W p = .ok (v, W') ∧ Value.loadPtr cells₁ (readSeen R) v = .ok (p', cells₂, readSeen R') ∧
      Link cells cells₀ W' R' cells₂ ∧ W <+: W' ∧ R <+: R' ∧
      ((p = none ∧ p' = none) ∨ ∃ k a a' : ℕ, p = some a ∧ p' = some a' ∧ W'[k]? = some a ∧ R'[k]? = some a') := by
  cases p with
  | none => exact ⟨_, _, none, cells₁, R, rfl, rfl, h, List.prefix_rfl, List.prefix_rfl, .inl ⟨rfl, rfl⟩⟩
  | some a =>
    by_cases ha : a ∈ W
    · have hk : W.idxOf a < W.length := List.idxOf_lt_length_of_mem ha
      have hk' : W.idxOf a < R.length := h.length ▸ hk
      refine ⟨.ptr (W.idxOf a + 1) none, W, some R[W.idxOf a], cells₁, R, ?_, ?_, h, List.prefix_rfl, List.prefix_rfl,
        .inr ⟨W.idxOf a, a, _, rfl, rfl, ?_, List.getElem?_eq_getElem hk'⟩⟩
      · simp only [Value.savePtr]; rw [if_pos ha]
      · simp only [Value.loadPtr]; rw [readSeen_lookup, List.getElem?_eq_getElem hk']
      · rw [List.getElem?_eq_getElem hk, List.getElem_idxOf hk]
    · have hlt := hp a rfl
      have hc : cells[a]? = some cells[a] := List.getElem?_eq_getElem hlt
      refine ⟨.ptr (W.length + 1) (some (Value.saveLengths cells[a])), W ++ [a], some cells₁.length, cells₁ ++ [cells[a]], R ++ [cells₁.length], ?_, ?_, ?_, List.prefix_append _ _, List.prefix_append _ _,
        .inr ⟨W.length, a, _, rfl, rfl, ?_, ?_⟩⟩
      · simp only [Value.savePtr]; rw [if_neg ha, hc]
      · simp only [Value.loadPtr]; rw [Value.loadLengths_save, ok_bind, readSeen_push, h.length]; rfl
      · exact h.push ha hc
      · simp
      · rw [h.length]; simp

variable [CommRing T] [LinearOrder T] [IsStrictOrderedRing T] {A : Arith T} {d : ℕ} {c : T →+ (Fin d → ℚ)}

/-- The objects that can be saved and loaded: default-constructed IETs, and valid IETs. -/
def Saveable (hA : A.Lawful c) (cells : List (SLengths T)) (o : IETObject T) : Prop :=
  (o.1.top = [] ∧ o.1.bottom = [] ∧ o.2 = none) ∨ ∃ a s, o.2 = some a ∧ cells[a]? = some s ∧ (SLengths.lawful hA).Ok o.1 s

theorem save_load (hA : A.Lawful c) (h : Link cells cells₀ W R cells₁) {o : IETObject T} (ho : Saveable hA cells o) :
    ∃ v W' o' cells₂ R', IETObject.save cells W o = .ok (v, W') ∧ IETObject.load A cells₁ (readSeen R) v = .ok (o', cells₂, readSeen R') ∧
      Link cells cells₀ W' R' cells₂ ∧ W <+: W' ∧ R <+: R' ∧ Loaded o o' W' R' := by
  obtain ⟨v, W', p', cells₂, R', h1, h2, h3, h4, h5, h6⟩ := savePtr_load h (p := o.2) (by
    intro a ha
    rcases ho with ⟨-, -, e⟩ | ⟨a', s, e, e2, -⟩
    · rw [e] at ha; cases ha
    · rw [e] at ha; cases ha; exact (List.getElem?_eq_some_iff.1 e2).1)
  refine ⟨.object [("top", .list (o.1.top.map Value.saveLabel)), ("bottom", .list (o.1.bottom.map Value.saveLabel)), ("lengths", v)], W', ?_⟩
  have hs : IETObject.save cells W o = .ok (.object [("top", .list (o.1.top.map Value.saveLabel)), ("bottom", .list (o.1.bottom.map Value.saveLabel)),
      ("lengths", v)], W') := by
    unfold IETObject.save
    rw [h1, ok_bind]
    rfl
  have hl : ∀ l : List Label, Value.readList (T := T) Value.loadLabel (.list (l.map Value.saveLabel)) = .ok l := fun l => mapM_load (f := Value.loadLabel) (g := Value.saveLabel) (fun _ => rfl) l
  rcases ho with ⟨e1, e2, e3⟩ | ⟨a, s, e1, e2, e3⟩
  · rcases h6 with ⟨-, h6⟩ | ⟨k, a, a', q1, -⟩
    · subst h6
      refine ⟨IETObject.default, cells₂, R', hs, ?_, h3, h4, h5, ?_, .inl ⟨e3, rfl⟩⟩
      · unfold IETObject.load
        simp only
        rw [hl, ok_bind, hl, ok_bind, h2, ok_bind]
        simp only
        rw [assertM, if_pos (by simp [e1, e2]), ok_bind]
        rfl
      · rw [e1, e2]; rfl
    · rw [e3] at q1; cases q1
  · rcases h6 with ⟨q1, -⟩ | ⟨k, b, a', q1, q2, q3, q4⟩
    · rw [e1] at q1; cases q1
    · rw [e1] at q1; cases q1
      subst q2
      have hc : cells₂[a']? = some s := by rw [h3.same k a a' q3 q4, e2]
      refine ⟨(IET.fresh o.1.top o.1.bottom, some a'), cells₂, R', hs, ?_, h3, h4, h5, rfl, .inr ⟨k, a, a', e1, rfl, q3, q4⟩⟩
      unfold IETObject.load
      simp only
      rw [hl, ok_bind, hl, ok_bind, h2, ok_bind]
      simp only
      rw [hc]
      simp only
      rw [mk?_spec (SLengths.lawful hA) e3.inv e3.valid e3.dom, ok_bind]
      rfl

theorem saveAll_load (hA : A.Lawful c) : ∀ (os : List (IETObject T)) {W R : List ℕ} {cells₁ : List (SLengths T)}, Link cells cells₀ W R cells₁ →
    (∀ o ∈ os, Saveable hA cells o) →
    ∃ vs os' cells₂ W' R', IETObject.saveAll cells W os = .ok vs ∧ IETObject.loadAll A cells₁ (readSeen R) vs = .ok (os', cells₂) ∧
      Link cells cells₀ W' R' cells₂ ∧ W <+: W' ∧ R <+: R' ∧ List.Forall₂ (fun o o' => Loaded o o' W' R') os os'
  | [], W, R, cells₁, h, _ => ⟨[], [], cells₁, W, R, rfl, rfl, h, List.prefix_rfl, List.prefix_rfl, .nil⟩
  | o :: os, W, R, cells₁, h, ho => by
    obtain ⟨v, W1, o', cells₂, R1, h1, h2, h3, h4, h5, h6⟩ := save_load hA h (ho o (by simp))
    obtain ⟨vs, os', cells₃, W2, R2, g1, g2, g3, g4, g5, g6⟩ := saveAll_load hA os h3 (fun o ho' => ho o (by simp [ho']))
    refine ⟨v :: vs, o' :: os', cells₃, W2, R2, ?_, ?_, g3, h4.trans g4, h5.trans g5, .cons (h6.mono g4 g5) g6⟩
    · unfold IETObject.saveAll
      rw [h1, ok_bind]
      simp only
      rw [g1, ok_bind]
      rfl
    · unfold IETObject.loadAll
      rw [h2, ok_bind]
      simp only
      rw [g2, ok_bind]
      rfl

end

end Verif
