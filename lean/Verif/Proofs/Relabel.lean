import Verif.Proofs.Independence
import Mathlib.Data.List.Forall2
import Mathlib.Logic.Relator

/-!
# Renaming labels

A partial bijection `Q` of labels relates two runs of the same code on IETs whose labels have other names.  None of the functions is assumed to
meet any specification: the code treats labels as opaque names.
-/

namespace Verif

set_option linter.unusedSectionVars false

open Relator

/-! ### Outcomes -/

theorem RelM.pure {α β : Type} {R : α → β → Prop} {a : α} {b : β} (h : R a b) : RelM R (.ok a) (.ok b) := h

theorem RelM.error {α β : Type} {R : α → β → Prop} (e : Err) : RelM R (.error e) (.error e) := rfl

theorem RelM.ite {α β : Type} {R : α → β → Prop} {p p' : Prop} [Decidable p] [Decidable p'] {x y : M α} {x' y' : M β} (hp : p ↔ p')
    (h1 : p → p' → RelM R x x') (h2 : ¬ p → ¬ p' → RelM R y y') : RelM R (if p then x else y) (if p' then x' else y') := by
  by_cases h : p
  · rw [if_pos h, if_pos (hp.1 h)]; exact h1 h (hp.1 h)
  · rw [if_neg h, if_neg (fun e => h (hp.2 e))]; exact h2 h (fun e => h (hp.2 e))

theorem RelM.assertM {b b' : Bool} (h : b = b') : RelM (fun _ _ => True) (assertM b) (assertM b') := by
  subst h
  cases b
  · exact rfl
  · exact trivial

theorem RelM.of_eq' {α : Type} {x y : M α} (h : x = y) : RelM Eq x y := RelM.of_eq h

theorem RelM.to_eq {α : Type} {x y : M α} (h : RelM Eq x y) : x = y := by
  cases x with
  | error e => cases y with
    | error e' => cases (show e = e' from h); rfl
    | ok b => exact h.elim
  | ok a => cases y with
    | error e' => exact h.elim
    | ok b => cases (show a = b from h); rfl

theorem RelM.mapM {α β γ δ : Type} {R : α → β → Prop} {S : γ → δ → Prop} {f : α → M γ} {g : β → M δ} (hf : ∀ a b, R a b → RelM S (f a) (g b))
    {l : List α} {l' : List β} (h : List.Forall₂ R l l') : RelM (List.Forall₂ S) (l.mapM f) (l'.mapM g) := by
  induction h with
  | nil => exact List.Forall₂.nil
  | cons h1 _ ih =>
    rw [List.mapM_cons, List.mapM_cons]
    refine (hf _ _ h1).bind (fun a b h2 => ?_)
    refine ih.bind (fun as bs h3 => ?_)
    exact List.Forall₂.cons h2 h3

theorem RelM.foldlM {α β γ δ : Type} {R : α → β → Prop} {S : γ → δ → Prop} {f : γ → α → M γ} {g : δ → β → M δ}
    (hf : ∀ x y a b, S x y → R a b → RelM S (f x a) (g y b)) {l : List α} {l' : List β} (h : List.Forall₂ R l l') :
    ∀ {x : γ} {y : δ}, S x y → RelM S (l.foldlM f x) (l'.foldlM g y) := by
  induction h with
  | nil => exact fun h => h
  | cons h1 _ ih =>
    intro x y hx
    rw [List.foldlM_cons, List.foldlM_cons]
    exact (hf _ _ _ _ hx h1).bind (fun a b h2 => ih h2)

theorem RelM.forM {α β : Type} {R : α → β → Prop} {f : α → M Unit} {g : β → M Unit} (hf : ∀ a b, R a b → RelM (fun _ _ => True) (f a) (g b))
    {l : List α} {l' : List β} (h : List.Forall₂ R l l') : RelM (fun _ _ => True) (l.forM f) (l'.forM g) := by
  induction h with
  | nil => exact trivial
  | cons h1 _ ih =>
    show RelM _ (f _ >>= fun _ => List.forM _ f) (g _ >>= fun _ => List.forM _ g)
    exact (hf _ _ h1).bind (fun _ _ _ => ih)

theorem forall₂_eq {α : Type} {l l' : List α} : List.Forall₂ Eq l l' ↔ l = l' := by rw [List.forall₂_eq_eq_eq]

/-! ### Lists -/

section

variable {α β : Type} {R : α → β → Prop}

theorem eq_iff_of_biUnique (hR : BiUnique R) {a a' : α} {b b' : β} (h : R a b) (h' : R a' b') : a = a' ↔ b = b' :=
  ⟨fun e => hR.2 (e ▸ h) h', fun e => hR.1 (e ▸ h) h'⟩

theorem forall₂_mem (hR : BiUnique R) {a : α} {b : β} (h : R a b) {l : List α} {l' : List β} (hl : List.Forall₂ R l l') : a ∈ l ↔ b ∈ l' :=
  List.rel_mem hR h hl

theorem forall₂_erase [DecidableEq α] [DecidableEq β] (hR : BiUnique R) {a : α} {b : β} (h : R a b) {l : List α} {l' : List β}
    (hl : List.Forall₂ R l l') : List.Forall₂ R (l.erase a) (l'.erase b) := by
  induction hl with
  | nil => exact .nil
  | @cons c d l l' h1 h2 ih =>
    rw [List.erase_cons, List.erase_cons]
    by_cases e : c = a
    · have e' : d = b := (eq_iff_of_biUnique hR h1 h).1 e
      simpa [e, e'] using h2
    · have e' : ¬ d = b := fun q => e ((eq_iff_of_biUnique hR h1 h).2 q)
      simp only [beq_iff_eq, e, e', if_false]
      exact .cons h1 ih

theorem forall₂_dedup [DecidableEq α] [DecidableEq β] (hR : BiUnique R) {l : List α} {l' : List β} (hl : List.Forall₂ R l l') :
    List.Forall₂ R l.dedup l'.dedup := by
  induction hl with
  | nil => exact .nil
  | @cons c d l l' h1 h2 ih =>
    by_cases e : c ∈ l
    · rw [List.dedup_cons_of_mem e, List.dedup_cons_of_mem ((forall₂_mem hR h1 h2).1 e)]; exact ih
    · rw [List.dedup_cons_of_notMem e, List.dedup_cons_of_notMem (fun q => e ((forall₂_mem hR h1 h2).2 q))]; exact .cons h1 ih

theorem forall₂_reverse {l : List α} {l' : List β} (hl : List.Forall₂ R l l') : List.Forall₂ R l.reverse l'.reverse := List.rel_reverse hl

theorem forall₂_getElem? {l : List α} {l' : List β} (hl : List.Forall₂ R l l') (i : ℕ) :
    (l[i]? = none ∧ l'[i]? = none) ∨ ∃ a b, l[i]? = some a ∧ l'[i]? = some b ∧ R a b := by
  induction hl generalizing i with
  | nil => exact .inl ⟨rfl, rfl⟩
  | cons h1 _ ih =>
    cases i with
    | zero => exact .inr ⟨_, _, rfl, rfl, h1⟩
    | succ i => simpa using ih i

/-- Optional values. -/
inductive OptRel (R : α → β → Prop) : Option α → Option β → Prop
  | none : OptRel R none none
  | some {a : α} {b : β} : R a b → OptRel R (some a) (some b)

theorem forall₂_head? {l : List α} {l' : List β} (hl : List.Forall₂ R l l') : OptRel R l.head? l'.head? := by
  cases hl with
  | nil => exact .none
  | cons h _ => exact .some h

theorem forall₂_getLast? {l : List α} {l' : List β} (hl : List.Forall₂ R l l') : OptRel R l.getLast? l'.getLast? := by
  rw [← List.head?_reverse, ← List.head?_reverse]
  exact forall₂_head? (forall₂_reverse hl)

theorem forall₂_take {l : List α} {l' : List β} (hl : List.Forall₂ R l l') (k : ℕ) : List.Forall₂ R (l.take k) (l'.take k) := List.forall₂_take k hl

theorem forall₂_drop {l : List α} {l' : List β} (hl : List.Forall₂ R l l') (k : ℕ) : List.Forall₂ R (l.drop k) (l'.drop k) := List.forall₂_drop k hl

theorem forall₂_tail {l : List α} {l' : List β} (hl : List.Forall₂ R l l') : List.Forall₂ R l.tail l'.tail := by
  cases hl with
  | nil => exact .nil
  | cons _ h => exact h

theorem forall₂_dropLast {l : List α} {l' : List β} (hl : List.Forall₂ R l l') : List.Forall₂ R l.dropLast l'.dropLast := by
  rw [List.dropLast_eq_take, List.dropLast_eq_take, hl.length_eq]
  exact forall₂_take hl _

theorem forall₂_append {l m : List α} {l' m' : List β} (h : List.Forall₂ R l l') (h' : List.Forall₂ R m m') : List.Forall₂ R (l ++ m) (l' ++ m') :=
  List.rel_append h h'

theorem forall₂_nil_iff {l : List α} {l' : List β} (h : List.Forall₂ R l l') : l = [] ↔ l' = [] := by
  cases h <;> simp

end

/-! ### Lengths -/

/-- What lengths can see of an IET. -/
structure Ctx.Rel (Q : Label → Label → Prop) (c c' : Ctx) : Prop where
  top : List.Forall₂ Q c.top c'.top
  swapped : c.swapped = c'.swapped

variable {σ σ' T : Type} [CommRing T] [LinearOrder T] [IsStrictOrderedRing T] {O : LengthsOps σ T} {O' : LengthsOps σ' T} {Q : Label → Label → Prop}

/-- The same lengths for labels with other names. -/
structure SLengths.Rel (Q : Label → Label → Prop) (s t : SLengths T) : Prop where
  get : ∀ a b, Q a b → s.lengths[a]? = t.lengths[b]?
  stack : List.Forall₂ Q s.stack t.stack
  nonneg : ∀ x ∈ s.lengths, 0 ≤ x
  nonneg' : ∀ x ∈ t.lengths, 0 ≤ x

/-- Two implementations of lengths that do the same with labels that have other names. -/
structure OpsRenamed (Q : Label → Label → Prop) (R : σ → σ' → Prop) (O : LengthsOps σ T) (O' : LengthsOps σ' T) : Prop where
  push : ∀ {a b s t}, Q a b → R s t → RelM R (O.push a s) (O'.push b t)
  pop : ∀ {s t}, R s t → RelM R (O.pop s) (O'.pop t)
  subtract : ∀ {x y a b s t}, Ctx.Rel Q x y → Q a b → R s t → RelM R (O.subtract x a s) (O'.subtract y b t)
  subtractRepeated : ∀ {x y a b s t}, Ctx.Rel Q x y → Q a b → R s t →
    RelM (fun p q => Q p.1 q.1 ∧ R p.2 q.2) (O.subtractRepeated x a s) (O'.subtractRepeated y b t)
  coefficients : ∀ {l m s t}, List.Forall₂ Q l m → R s t → O.coefficients l s = O'.coefficients m t
  cmp : ∀ {a b s t}, Q a b → R s t → O.cmp a s = O'.cmp b t
  cmp2 : ∀ {a b a' b' s t}, Q a b → Q a' b' → R s t → O.cmp2 a a' s = O'.cmp2 b b' t
  get : ∀ {a b s t}, Q a b → R s t → O.get a s = O'.get b t
  forget : ∀ {s t}, R s t → RelM (SLengths.Rel Q) (O.forget s) (O'.forget t)

section sample

variable (hQ : BiUnique Q)

theorem SLengths.Rel.at' {s t : SLengths T} (h : SLengths.Rel Q s t) {a b : Label} (hab : Q a b) : s.at' a = t.at' b := by
  simp only [SLengths.at', h.get a b hab]

theorem SLengths.Rel.value {s t : SLengths T} (h : SLengths.Rel Q s t) : s.value = t.value := by
  refine RelM.to_eq (RelM.foldlM (S := Eq) ?_ h.stack rfl)
  rintro x _ a b rfl hab
  rw [h.at' hab]
  exact RelM.of_eq' rfl

include hQ in
theorem SLengths.Rel.set {s t : SLengths T} (h : SLengths.Rel Q s t) {a b : Label} (hab : Q a b) {x : T} :
    RelM (fun s' t' => (∀ a b, Q a b → s'.lengths[a]? = t'.lengths[b]?) ∧ List.Forall₂ Q s'.stack t'.stack ∧
      s' = { s with lengths := s.lengths.set a x } ∧ t' = { t with lengths := t.lengths.set b x } ∧ s'.at' a = .ok x ∧ t'.at' b = .ok x)
      (s.set a x) (t.set b x) := by
  unfold SLengths.set
  have hlt : a < s.lengths.length ↔ b < t.lengths.length := by
    have := h.get a b hab
    rw [← not_iff_not, not_lt, not_lt, ← List.getElem?_eq_none_iff, ← List.getElem?_eq_none_iff, this]
  refine RelM.ite hlt (fun h1 h2 => ?_) (fun _ _ => RelM.error _)
  refine ⟨?_, h.stack, rfl, rfl, ?_, ?_⟩
  · intro a' b' hab'
    simp only [List.getElem?_set, h1, h2, if_true]
    by_cases e : a = a'
    · rw [if_pos e, if_pos ((eq_iff_of_biUnique hQ hab hab').1 e)]
      
    · rw [if_neg e, if_neg (fun q => e ((eq_iff_of_biUnique hQ hab hab').2 q))]
      exact h.get a' b' hab'
  · simp [SLengths.at', h1]
  · simp [SLengths.at', h2]

theorem nonneg_set {l : List T} {a : Label} {x : T} (h : ∀ y ∈ l, 0 ≤ y) (hx : 0 ≤ x) : ∀ y ∈ l.set a x, 0 ≤ y := by
  intro y hy
  rcases List.mem_or_eq_of_mem_set hy with h1 | h1
  · exact h y h1
  · exact h1 ▸ hx

theorem SLengths.Rel.clear {s t : SLengths T} (h : SLengths.Rel Q s t) : SLengths.Rel Q s.clear t.clear :=
  ⟨h.get, .nil, h.nonneg, h.nonneg'⟩

include hQ in
/-- Setting the length of a label, followed by an assertion. -/
theorem SLengths.Rel.set_assert {α β : Type} {s t : SLengths T} (h : SLengths.Rel Q s t) {a b : Label} (hab : Q a b) {x : T} {p : T → Bool}
    (hp : p x = true → 0 ≤ x) {R : α → β → Prop} {f : SLengths T → M α} {g : SLengths T → M β}
    (hf : ∀ s' t', SLengths.Rel Q s' t' → s'.stack = s.stack → t'.stack = t.stack → RelM R (f s') (g t')) :
    RelM R (do let s ← s.set a x; assertM (p (← s.at' a)); f s) (do let t ← t.set b x; assertM (p (← t.at' b)); g t) := by
  refine (h.set hQ hab (x := x)).bind ?_
  rintro s' t' ⟨h1, h2, h3, h4, h5, h6⟩
  simp only [h5, h6, bind, Except.bind, assertM]
  cases hpx : p x with
  | false => exact RelM.error _
  | true =>
    refine hf s' t' ⟨h1, h2, ?_, ?_⟩ (by rw [h3]) (by rw [h4])
    · rw [h3]; exact nonneg_set h.nonneg (hp hpx)
    · rw [h4]; exact nonneg_set h.nonneg' (hp hpx)

include hQ in
theorem SLengths.Rel.subtract {s t : SLengths T} (h : SLengths.Rel Q s t) {a b : Label} (hab : Q a b) :
    RelM (SLengths.Rel Q) (s.subtract a) (t.subtract b) := by
  unfold SLengths.subtract
  rw [h.value, h.at' hab]
  refine (RelM.of_eq' rfl).bind ?_
  rintro x _ rfl
  refine (RelM.of_eq' rfl).bind ?_
  rintro y _ rfl
  exact h.set_assert hQ hab (p := fun z => decide (0 < z)) (fun e => (of_decide_eq_true e).le) (fun s' t' h' _ _ => h'.clear)

include hQ in
theorem SLengths.Rel.loop {a b : Label} (hab : Q a b) {l l' : List Label} (hl : List.Forall₂ Q l l') : ∀ {stop stop' : Label}, Q stop stop' →
    ∀ {s t : SLengths T}, SLengths.Rel Q s t →
    RelM (fun p q => Q p.1 q.1 ∧ SLengths.Rel Q p.2 q.2) (SLengths.subtractRepeatedLoop a l stop s) (SLengths.subtractRepeatedLoop b l' stop' t) := by
  induction hl with
  | nil => intro _ _ _ _ _ _; exact RelM.error _
  | @cons c d l l' h1 h2 ih =>
    intro stop stop' hs s t h
    unfold SLengths.subtractRepeatedLoop
    rw [h.at' hab, h.at' h1]
    refine (RelM.of_eq' rfl).bind ?_
    rintro x _ rfl
    refine (RelM.of_eq' rfl).bind ?_
    rintro y _ rfl
    refine RelM.ite Iff.rfl (fun _ _ => ⟨hs, h.clear⟩) (fun _ _ => ?_)
    refine (RelM.of_eq' rfl).bind ?_
    rintro x _ rfl
    refine (RelM.of_eq' rfl).bind ?_
    rintro y _ rfl
    exact h.set_assert hQ hab (p := fun z => decide (0 < z)) (fun e => (of_decide_eq_true e).le) (fun s' t' h' _ _ => ih h1 h')

theorem SLengths.at'_nonneg {s : SLengths T} (h : ∀ x ∈ s.lengths, 0 ≤ x) {a : Label} {x : T} (hx : s.at' a = .ok x) : 0 ≤ x := by
  unfold SLengths.at' at hx
  cases hy : s.lengths[a]? with
  | none => rw [hy] at hx; cases hx
  | some z => rw [hy] at hx; cases hx; exact h _ (List.mem_of_getElem? hy)

theorem SLengths.value_nonneg {s : SLengths T} (h : ∀ x ∈ s.lengths, 0 ≤ x) {x : T} (hx : s.value = .ok x) : 0 ≤ x := by
  have : ∀ (l : List Label) (v x : T), 0 ≤ v → l.foldlM (fun v l => do return v + (← s.at' l)) v = Except.ok x → 0 ≤ x := by
    intro l
    induction l with
    | nil => intro v x hv e; cases e; exact hv
    | cons a l ih =>
      intro v x hv e
      rw [List.foldlM_cons] at e
      cases ha : s.at' a with
      | error e' => rw [ha] at e; cases e
      | ok y =>
        rw [ha] at e
        exact ih (v + y) x (add_nonneg hv (SLengths.at'_nonneg h ha)) e
  exact this s.stack 0 x le_rfl hx

include hQ in
theorem SLengths.Rel.subtractRepeated (A : Arith T) {s t : SLengths T} (h : SLengths.Rel Q s t) {a b : Label} (hab : Q a b) :
    RelM (fun p q => Q p.1 q.1 ∧ SLengths.Rel Q p.2 q.2) (s.subtractRepeated A a) (t.subtractRepeated A b) := by
  unfold SLengths.subtractRepeated
  have hlast := forall₂_getLast? h.stack
  generalize s.stack.getLast? = o, t.stack.getLast? = o' at hlast
  cases hlast with
  | none => exact RelM.error _
  | some hl =>
    simp only
    rw [h.value, h.at' hab]
    refine (RelM.of_eq' rfl).bind ?_
    rintro x _ rfl
    refine (RelM.of_eq' rfl).bind ?_
    rintro y _ rfl
    refine (RelM.of_eq' rfl).bind ?_
    rintro q _ rfl
    refine (RelM.of_eq' rfl).bind ?_
    rintro x _ rfl
    refine (RelM.of_eq' rfl).bind ?_
    rintro y _ rfl
    refine h.set_assert hQ hab (p := fun z => decide (0 ≤ z)) (fun e => of_decide_eq_true e) (fun s' t' h' e1 e2 => ?_)
    rw [h'.at' hab, h'.value]
    refine (RelM.of_eq' rfl).bind ?_
    rintro x _ rfl
    refine RelM.ite Iff.rfl (fun h0 _ => ?_) (fun _ _ => SLengths.Rel.loop hQ hab h'.stack hl h')
    cases hx : t'.at' b with
    | error e => exact RelM.error _
    | ok x =>
      cases hy : t'.value with
      | error e => exact RelM.error _
      | ok y =>
        have h0 : 0 ≤ x + y := add_nonneg (SLengths.at'_nonneg h'.nonneg' hx) (SLengths.value_nonneg h'.nonneg' hy)
        refine (h'.set hQ hab (x := x + y)).bind ?_
        rintro s₁ t₁ ⟨h1, h2, h3, h4, -⟩
        have h₁ : SLengths.Rel Q s₁ t₁ := ⟨h1, h2, h3 ▸ nonneg_set h'.nonneg h0, h4 ▸ nonneg_set h'.nonneg' h0⟩
        exact SLengths.Rel.loop hQ hab h₁.stack hl h₁

theorem SLengths.make_of_nonneg {l : List T} (h : ∀ x ∈ l, 0 ≤ x) : SLengths.make l = .ok ⟨[], l⟩ := by
  unfold SLengths.make
  rw [if_neg]
  simp only [List.any_eq_true, decide_eq_true_eq, not_exists, not_and, not_lt]
  exact h

include hQ in
/-- `sample::Lengths`, whatever the arithmetic. -/
theorem SLengths.opsRenamed (A : Arith T) : OpsRenamed Q (SLengths.Rel Q) (SLengths.ops A) (SLengths.ops A) where
  push hab h := ⟨h.get, forall₂_append h.stack (.cons hab .nil), h.nonneg, h.nonneg'⟩
  pop h := by
    simp only [SLengths.ops, SLengths.pop]
    exact RelM.ite (forall₂_nil_iff h.stack) (fun _ _ => RelM.error _) (fun _ _ => ⟨h.get, forall₂_dropLast h.stack, h.nonneg, h.nonneg'⟩)
  subtract _ hab h := h.subtract hQ hab
  subtractRepeated _ hab h := h.subtractRepeated hQ A hab
  coefficients hl h := by
    simp only [SLengths.ops, SLengths.coefficients]
    rw [RelM.to_eq ((RelM.mapM (S := Eq) (fun a b hab => RelM.of_eq' (h.at' hab)) hl).mono (fun _ _ e => forall₂_eq.1 e))]
  cmp hab h := by simp only [SLengths.ops, SLengths.cmp, h.value, h.at' hab]
  cmp2 hab hab' h := by simp only [SLengths.ops, SLengths.cmp2, h.at' hab, h.at' hab']
  get hab h := h.at' hab
  forget h := by
    simp only [SLengths.ops, SLengths.forget, SLengths.make_of_nonneg h.nonneg, SLengths.make_of_nonneg h.nonneg']
    exact ⟨h.get, .nil, h.nonneg, h.nonneg'⟩

include hQ in
theorem SLengths.Rel.only {s t : SLengths T} (h : SLengths.Rel Q s t) {l l' : List Label} (hl : List.Forall₂ Q l l') :
    RelM (SLengths.Rel Q) (s.only l) (t.only l') := by
  obtain ⟨s', e1, e2, e3, e4⟩ := only_spec l s h.nonneg
  obtain ⟨t', f1, f2, f3, f4⟩ := only_spec l' t h.nonneg'
  rw [e1, f1]
  have key : ∀ {u v : SLengths T} {k : List Label}, (∀ x ∈ u.lengths, 0 ≤ x) → v.lengths.length = u.lengths.length →
      (∀ a < u.lengths.length, v.lengths[a]? = if a ∈ k then u.lengths[a]? else some 0) → ∀ x ∈ v.lengths, 0 ≤ x := by
    intro u v k h1 h2 h3 x hx
    obtain ⟨i, hi, e⟩ := List.getElem_of_mem hx
    have h4 := h3 i (h2 ▸ hi)
    rw [List.getElem?_eq_getElem hi, e] at h4
    by_cases hk : i ∈ k
    · rw [if_pos hk] at h4
      exact h1 x (List.mem_of_getElem? h4.symm)
    · rw [if_neg hk] at h4
      exact (Option.some.inj h4).ge
  refine ⟨fun a b hab => ?_, by rw [e2, f2]; exact .nil, key h.nonneg e3 e4, key h.nonneg' f3 f4⟩
  have hg := h.get a b hab
  by_cases ha : a < s.lengths.length
  · have hb : b < t.lengths.length := by
      by_contra hb
      rw [List.getElem?_eq_getElem ha, List.getElem?_eq_none (not_lt.1 hb)] at hg
      cases hg
    rw [e4 a ha, f4 b hb, hg]
    by_cases hm : a ∈ l
    · rw [if_pos hm, if_pos ((forall₂_mem hQ hab hl).1 hm)]
    · rw [if_neg hm, if_neg (fun q => hm ((forall₂_mem hQ hab hl).2 q))]
  · have hb : ¬ b < t.lengths.length := by
      intro hb
      rw [List.getElem?_eq_getElem hb, List.getElem?_eq_none (not_lt.1 ha)] at hg
      cases hg
    rw [List.getElem?_eq_none (e3.le.trans (not_lt.1 ha)), List.getElem?_eq_none (f3.le.trans (not_lt.1 hb))]

end sample

/-! ### Interval exchange transformations -/

/-- The state of the tracker for labels with other names. -/
structure Tracker.Rel (Q : Label → Label → Prop) (t t' : Tracker T) : Prop where
  periodBound : t.periodBound = t'.periodBound
  ttl : t.ttl = t'.ttl
  top : List.Forall₂ Q t.top t'.top
  bottom : t.bottom = t'.bottom
  lengths : SLengths.Rel Q t.lengths t'.lengths

/-- The same IET for labels with other names. -/
structure IET.Rel (Q : Label → Label → Prop) (E F : IET T) : Prop where
  top : List.Forall₂ Q E.top F.top
  bottom : List.Forall₂ Q E.bottom F.bottom
  safCache : E.safCache = F.safCache
  swapped : E.swapped = F.swapped
  tracker : Tracker.Rel Q E.tracker F.tracker

/-- The same result for labels with other names. -/
structure InductionStep.Rel (Q : Label → Label → Prop) (x y : InductionStep T) : Prop where
  result : x.result = y.result
  connection : OptRel (fun p q => Q p.1 q.1 ∧ Q p.2 q.2) x.connection y.connection
  additional : OptRel (IET.Rel Q) x.additional y.additional

section iet

variable {R : σ → σ' → Prop} (hQ : BiUnique Q) (hO : OpsRenamed Q R O O')

theorem IET.Rel.swap {E F : IET T} (h : IET.Rel Q E F) : IET.Rel Q E.swap F.swap :=
  ⟨h.bottom, h.top, h.safCache, by simp only [IET.swap, h.swapped], h.tracker⟩

theorem IET.Rel.ctx {E F : IET T} (h : IET.Rel Q E F) : Ctx.Rel Q E.ctx F.ctx := ⟨h.top, h.swapped⟩

theorem IET.Rel.fresh {top bottom top' bottom' : List Label} (h : List.Forall₂ Q top top') (h' : List.Forall₂ Q bottom bottom') :
    IET.Rel Q (IET.fresh top bottom : IET T) (IET.fresh top' bottom') :=
  ⟨h, h', rfl, rfl, rfl, rfl, .nil, rfl, fun a b _ => by simp [IET.fresh, Tracker.init], .nil, by simp [IET.fresh, Tracker.init],
    by simp [IET.fresh, Tracker.init]⟩

include hQ hO in
theorem IET.Rel.mk? {top bottom top' bottom' : List Label} (h : List.Forall₂ Q top top') (h' : List.Forall₂ Q bottom bottom') {s : σ} {t : σ'}
    (hs : R s t) : RelM (IET.Rel Q) (IET.mk? O top bottom s) (IET.mk? O' top' bottom' t) := by
  unfold IET.mk?
  rw [h.length_eq, h'.length_eq, (forall₂_dedup hQ h).length_eq, (forall₂_dedup hQ h').length_eq]
  refine (RelM.assertM rfl).bind (fun _ _ _ => ?_)
  refine (RelM.assertM rfl).bind (fun _ _ _ => ?_)
  refine (RelM.assertM rfl).bind (fun _ _ _ => ?_)
  refine ((RelM.mapM (S := Eq) (fun a b hab => RelM.of_eq' (hO.get hab hs)) h).mono (fun _ _ e => forall₂_eq.1 e)).bind ?_
  rintro l _ rfl
  refine (RelM.assertM rfl).bind (fun _ _ _ => ?_)
  refine (RelM.assertM rfl).bind (fun _ _ _ => ?_)
  exact IET.Rel.fresh h h'

include hQ in
theorem walkBack_rel {stop stop' : Label} (hstop : Q stop stop') : ∀ {rev rev' suf suf' : List Label}, List.Forall₂ Q rev rev' →
    List.Forall₂ Q suf suf' → RelM (fun p q => List.Forall₂ Q p.1 q.1 ∧ List.Forall₂ Q p.2 q.2) (IET.walkBack stop rev suf) (IET.walkBack stop' rev' suf')
  | _, _, _, _, _, .nil => by unfold IET.walkBack; exact RelM.error _
  | _, _, _, _, .nil, .cons h1 h2 => by
    unfold IET.walkBack
    exact RelM.ite (eq_iff_of_biUnique hQ h1 hstop) (fun _ _ => ⟨.cons h1 .nil, h2⟩) (fun _ _ => RelM.error _)
  | _, _, _, _, .cons g1 g2, .cons h1 h2 => by
    unfold IET.walkBack
    exact RelM.ite (eq_iff_of_biUnique hQ h1 hstop) (fun _ _ => ⟨forall₂_reverse (.cons h1 (.cons g1 g2)), h2⟩)
      (fun _ _ => walkBack_rel hstop g2 (.cons g1 (.cons h1 h2)))

include hQ hO in
theorem zorichLoop_rel {x y : Ctx} (hx : Ctx.Rel Q x y) {a b : Label} (hab : Q a b) {l l' : List Label} (hl : List.Forall₂ Q l l') :
    ∀ {rev rev' : List Label}, List.Forall₂ Q rev rev' → ∀ {s : σ} {t : σ'}, R s t →
    RelM (fun p q => (List.Forall₂ Q p.1.1 q.1.1 ∧ List.Forall₂ Q p.1.2 q.1.2) ∧ R p.2 q.2) (IET.zorichLoop O x a rev l s) (IET.zorichLoop O' y b rev' l' t) := by
  induction hl with
  | nil => intro _ _ _ _ _ _; exact RelM.error _
  | @cons c d l l' h1 h2 ih =>
    intro rev rev' hr s t hs
    unfold IET.zorichLoop
    refine RelM.ite (eq_iff_of_biUnique hQ h1 hab) (fun _ _ => ?_) (fun _ _ => ?_)
    · refine (hO.subtractRepeated hx hab hs).bind ?_
      rintro ⟨p, s'⟩ ⟨q, t'⟩ ⟨h3, h4⟩
      refine (walkBack_rel hQ h3 hr (.cons h1 h2)).bind ?_
      intro u v huv
      exact ⟨huv, h4⟩
    · refine (hO.push h1 hs).bind ?_
      intro s' t' hs'
      rw [hO.cmp hab hs']
      refine (RelM.of_eq' rfl).bind ?_
      rintro x _ rfl
      refine RelM.ite Iff.rfl (fun _ _ => ?_) (fun _ _ => ?_)
      · refine (hO.pop hs').bind ?_
        intro s₁ t₁ hs₁
        refine (hO.subtract hx hab hs₁).bind ?_
        intro s₂ t₂ hs₂
        exact ⟨⟨forall₂_reverse hr, .cons h1 h2⟩, hs₂⟩
      · exact ih (.cons h1 hr) hs'

include hQ in
theorem spliceBefore_rel {a b : Label} (hab : Q a b) {m m' : List Label} (hm : List.Forall₂ Q m m') {l l' : List Label} (hl : List.Forall₂ Q l l') :
    RelM (List.Forall₂ Q) (IET.spliceBefore a m l) (IET.spliceBefore b m' l') := by
  induction hl with
  | nil => exact RelM.error _
  | cons h1 h2 ih =>
    unfold IET.spliceBefore
    refine RelM.ite (eq_iff_of_biUnique hQ h1 hab) (fun _ _ => forall₂_append hm (.cons h1 h2)) (fun _ _ => ?_)
    exact ih.bind (fun u v h => List.Forall₂.cons h1 h)

include hQ hO in
theorem IET.Rel.zorich {E F : IET T} (h : IET.Rel Q E F) {s : σ} {t : σ'} (hs : R s t) :
    RelM (fun p q => p.1 = q.1 ∧ IET.Rel Q p.2.1 q.2.1 ∧ R p.2.2 q.2.2) (E.zorichInduction O s) (F.zorichInduction O' t) := by
  unfold IET.zorichInduction
  have htop := h.top
  have hbot := h.bottom
  have hctx := h.ctx
  generalize E.top = top, F.top = top' at htop
  generalize hb1 : E.bottom = bot at hbot ⊢
  generalize hb2 : F.bottom = bot' at hbot ⊢
  cases htop with
  | nil => exact RelM.error _
  | cons h1 h2 =>
    cases hbot with
    | nil => exact RelM.error _
    | cons g1 g2 =>
      simp only
      refine RelM.ite (eq_iff_of_biUnique hQ h1 g1) (fun _ _ => ⟨rfl, h, hs⟩) (fun _ _ => ?_)
      refine (zorichLoop_rel hQ hO hctx h1 (.cons g1 g2) .nil hs).bind ?_
      rintro ⟨⟨m, r⟩, s'⟩ ⟨⟨m', r'⟩, t'⟩ ⟨⟨e1, e2⟩, hs'⟩
      simp only at e1 e2 hs' ⊢
      refine (spliceBefore_rel hQ h1 e1 e2).bind ?_
      intro u v huv
      cases huv with
      | nil => exact RelM.error _
      | cons k1 k2 =>
        simp only
        rw [hO.cmp2 h1 k1 hs']
        refine (RelM.of_eq' rfl).bind ?_
        rintro x _ rfl
        exact ⟨rfl, ⟨.cons h1 h2, .cons k1 k2, h.safCache, h.swapped, h.tracker⟩, hs'⟩

include hO in
theorem IET.Rel.coefficients {E F : IET T} (h : IET.Rel Q E F) {s : σ} {t : σ'} (hs : R s t) : E.coefficients O s = F.coefficients O' t :=
  hO.coefficients h.top hs

/-- The maps from labels to coefficients. -/
def CoeffRel (Q : Label → Label → Prop) : IET.CoeffMap → IET.CoeffMap → Prop := List.Forall₂ (fun p q => Q p.1 q.1 ∧ p.2 = q.2)

theorem forall₂_zip {α β γ : Type} {P : α → β → Prop} {l : List α} {l' : List β} (h : List.Forall₂ P l l') :
    ∀ (m : List γ), List.Forall₂ (fun (p : α × γ) (q : β × γ) => P p.1 q.1 ∧ p.2 = q.2) (l.zip m) (l'.zip m) := by
  induction h with
  | nil => intro m; simp
  | cons h1 _ ih =>
    intro m
    cases m with
    | nil => simp
    | cons x m => exact .cons ⟨h1, rfl⟩ (ih m)

include hO in
theorem IET.Rel.labelToCoefficients {E F : IET T} (h : IET.Rel Q E F) {s : σ} {t : σ'} (hs : R s t) :
    RelM (CoeffRel Q) (E.labelToCoefficients O s) (F.labelToCoefficients O' t) := by
  unfold IET.labelToCoefficients
  rw [h.coefficients hO hs]
  refine (RelM.of_eq' rfl).bind ?_
  rintro x _ rfl
  exact forall₂_zip h.top x

include hQ in
theorem CoeffRel.at' {m m' : IET.CoeffMap} (hm : CoeffRel Q m m') {a b : Label} (hab : Q a b) : m.at' a = m'.at' b := by
  unfold IET.CoeffMap.at'
  have : ∀ {l l' : IET.CoeffMap}, CoeffRel Q l l' → l.lookup a = l'.lookup b := by
    intro l l' h
    induction h with
    | nil => rfl
    | @cons p q l l' h1 h2 ih =>
      obtain ⟨x, v⟩ := p
      obtain ⟨y, w⟩ := q
      obtain ⟨h1, rfl⟩ := h1
      rw [List.lookup_cons, List.lookup_cons, ih]
      have : (a == x) = (b == y) := by
        rw [Bool.eq_iff_iff, beq_iff_eq, beq_iff_eq]
        exact eq_iff_of_biUnique hQ hab h1
      rw [this]
  rw [this (forall₂_reverse hm)]

include hQ in
theorem translationLoop_rel (op : List ℚ → List ℚ → M (List ℚ)) {m m' : IET.CoeffMap} (hm : CoeffRel Q m m') {a b : Label} (hab : Q a b)
    {l l' : List Label} (hl : List.Forall₂ Q l l') : ∀ v, IET.translationLoop op m a l v = IET.translationLoop op m' b l' v := by
  induction hl with
  | nil => intro v; rfl
  | cons h1 h2 ih =>
    intro v
    unfold IET.translationLoop
    rw [CoeffRel.at' hQ hm h1]
    refine RelM.to_eq (RelM.ite (eq_iff_of_biUnique hQ h1 hab) (fun _ _ => RelM.of_eq' rfl) (fun _ _ => RelM.of_eq' ?_))
    simp only [ih]

include hQ in
theorem IET.Rel.translation {E F : IET T} (h : IET.Rel Q E F) {a b a' b' : Label} (hab : Q a b) (hab' : Q a' b') {m m' : IET.CoeffMap}
    (hm : CoeffRel Q m m') : E.translation a a' m = F.translation b b' m' := by
  unfold IET.translation
  have hm' := hm
  cases hm' with
  | nil => rfl
  | @cons p q l l' h1 h2 =>
    obtain ⟨x, v⟩ := p
    obtain ⟨y, w⟩ := q
    obtain ⟨h1, rfl⟩ := h1
    simp only [translationLoop_rel hQ IET.subVec hm hab h.top, translationLoop_rel hQ IET.addVec hm hab' h.bottom]

include hQ hO in
theorem IET.Rel.translations {E F : IET T} (h : IET.Rel Q E F) {s : σ} {t : σ'} (hs : R s t) : E.translations O s = F.translations O' t := by
  unfold IET.translations
  refine RelM.to_eq ((h.labelToCoefficients hO hs).bind ?_)
  intro m m' hm
  exact (RelM.mapM (R := Q) (S := Eq) (fun a b hab => RelM.of_eq' (h.translation hQ hab hab hm)) h.top).mono (fun _ _ e => forall₂_eq.1 e)

include hQ hO in
theorem IET.Rel.rawSaf {E F : IET T} (h : IET.Rel Q E F) {s : σ} {t : σ'} (hs : R s t) : E.rawSaf O s = F.rawSaf O' t := by
  unfold IET.rawSaf
  rw [h.coefficients hO hs, h.translations hQ hO hs]

include hQ hO in
theorem IET.Rel.saf {E F : IET T} (h : IET.Rel Q E F) {s : σ} {t : σ'} (hs : R s t) :
    RelM (fun p q => p.1 = q.1 ∧ IET.Rel Q p.2 q.2) (E.saf O s) (F.saf O' t) := by
  unfold IET.saf
  rw [h.safCache, h.rawSaf hQ hO hs, h.swapped]
  cases F.safCache with
  | some v => exact ⟨rfl, h⟩
  | none =>
    simp only
    refine (RelM.of_eq' rfl).bind ?_
    rintro v _ rfl
    exact ⟨rfl, h.top, h.bottom, rfl, rfl, h.tracker⟩

include hQ hO in
theorem IET.Rel.saf0 {E F : IET T} (h : IET.Rel Q E F) {s : σ} {t : σ'} (hs : R s t) :
    RelM (fun p q => p.1 = q.1 ∧ IET.Rel Q p.2 q.2) (E.saf0 O s) (F.saf0 O' t) := by
  unfold IET.saf0
  refine (h.saf hQ hO hs).bind ?_
  rintro ⟨v, E'⟩ ⟨w, F'⟩ ⟨e, h'⟩
  cases e
  exact ⟨rfl, h'⟩

include hQ hO in
theorem IET.Rel.safInvariant {E F : IET T} (h : IET.Rel Q E F) {s : σ} {t : σ'} (hs : R s t) :
    RelM (fun p q => p.1 = q.1 ∧ IET.Rel Q p.2 q.2) (E.safInvariant O s) (F.safInvariant O' t) := by
  unfold IET.safInvariant
  refine (h.saf hQ hO hs).bind ?_
  rintro ⟨v, E'⟩ ⟨w, F'⟩ ⟨e, h'⟩
  cases e
  refine ⟨?_, h'⟩
  have e : E'.swapped = F'.swapped := h'.swapped
  simp only [e]

include hQ hO in
theorem IET.Rel.equations {E F : IET T} (h : IET.Rel Q E F) {s : σ} {t : σ'} (hs : R s t) :
    E.boshernitzanEquations O s = F.boshernitzanEquations O' t := by
  unfold IET.boshernitzanEquations
  rw [h.translations hQ hO hs]

theorem IET.Rel.size {E F : IET T} (h : IET.Rel Q E F) : E.size = F.size := h.top.length_eq

include hQ hO in
theorem IET.Rel.bosh (L : PPL) {E F : IET T} (h : IET.Rel Q E F) {s : σ} {t : σ'} (hs : R s t) :
    RelM (fun p q => p.1 = q.1 ∧ IET.Rel Q p.2 q.2) (E.boshernitzanNoPeriodicTrajectory L O s) (F.boshernitzanNoPeriodicTrajectory L O' t) := by
  unfold IET.boshernitzanNoPeriodicTrajectory
  refine (h.saf0 hQ hO hs).bind ?_
  rintro ⟨v, E'⟩ ⟨w, F'⟩ ⟨e, h'⟩
  cases e
  simp only at h' ⊢
  rw [h'.size, h'.equations hQ hO hs]
  refine RelM.ite Iff.rfl (fun _ _ => ⟨rfl, h'⟩) (fun _ _ => RelM.ite Iff.rfl (fun _ _ => ⟨rfl, h'⟩) (fun _ _ => ?_))
  refine (RelM.of_eq' rfl).bind ?_
  rintro x _ rfl
  refine (RelM.of_eq' rfl).bind ?_
  rintro x _ rfl
  refine (RelM.of_eq' rfl).bind ?_
  rintro x _ rfl
  exact ⟨rfl, h'⟩

include hQ in
theorem nextLabel_rel {a b : Label} (hab : Q a b) {l l' : List Label} (hl : List.Forall₂ Q l l') :
    RelM (OptRel Q) (IET.nextLabel a l) (IET.nextLabel b l') := by
  induction hl with
  | nil => exact RelM.error _
  | cons h1 h2 ih =>
    unfold IET.nextLabel
    exact RelM.ite (eq_iff_of_biUnique hQ h1 hab) (fun _ _ => forall₂_head? h2) (fun _ _ => ih)

include hQ hO in
theorem IET.Rel.noSaddle₂ (L : PPL) {E F : IET T} (h : IET.Rel Q E F) {s : σ} {t : σ'} (hs : R s t) {a b a' b' : Label} (hab : Q a b) (hab' : Q a' b') :
    E.boshernitzanNoSaddleConnection₂ L O a a' s = F.boshernitzanNoSaddleConnection₂ L O' b b' t := by
  unfold IET.boshernitzanNoSaddleConnection₂
  rw [h.equations hQ hO hs]
  have : E.boshernitzanSaddleConnectionValues O a a' s = F.boshernitzanSaddleConnectionValues O' b b' t := by
    unfold IET.boshernitzanSaddleConnectionValues
    refine RelM.to_eq ((nextLabel_rel hQ hab h.top).bind ?_)
    intro x y hxy
    cases hxy with
    | none => exact RelM.error _
    | some hxy =>
      refine (nextLabel_rel hQ hab' h.bottom).bind ?_
      intro x' y' hxy'
      cases hxy' with
      | none => exact RelM.error _
      | some hxy' =>
        refine (h.labelToCoefficients hO hs).bind ?_
        intro m m' hm
        rw [h.translation hQ hxy hxy' hm]
        exact RelM.of_eq' rfl
  rw [this]

theorem allM_rel {α β : Type} {P : α → β → Prop} {f : α → M Bool} {g : β → M Bool} (hf : ∀ a b, P a b → f a = g b) {l : List α} {l' : List β}
    (h : List.Forall₂ P l l') : IET.allM f l = IET.allM g l' := by
  induction h with
  | nil => rfl
  | cons h1 _ ih =>
    unfold IET.allM
    rw [hf _ _ h1, ih]

include hQ hO in
theorem IET.Rel.noSaddle (L : PPL) {E F : IET T} (h : IET.Rel Q E F) {s : σ} {t : σ'} (hs : R s t) :
    E.boshernitzanNoSaddleConnection L O s = F.boshernitzanNoSaddleConnection L O' t := by
  unfold IET.boshernitzanNoSaddleConnection
  rw [h.size, allM_rel (P := Q) (fun a b hab => allM_rel (P := Q) (fun a' b' hab' => h.noSaddle₂ hQ hO L hs hab hab') (forall₂_tail (forall₂_reverse h.bottom)))
    (forall₂_tail (forall₂_reverse h.top))]

include hQ in
theorem reduceLoop_rel {l l' : List Label} (hl : List.Forall₂ Q l l') : ∀ {m m' : List Label}, List.Forall₂ Q m m' → ∀ {k k' : List Label}, List.Forall₂ Q k k' →
    ∀ (x y : Int) (n : ℕ), IET.reduceLoop l m k x y n = IET.reduceLoop l' m' k' x y n := by
  induction hl with
  | nil => intros; simp only [IET.reduceLoop]
  | @cons a b l l' h1 h2 ih =>
    intro m m' hm
    cases hm with
    | nil => intros; simp only [IET.reduceLoop]
    | @cons c d m m' g1 g2 =>
      intro k k' hk x y n
      have key : ∀ {k k' : List Label}, List.Forall₂ Q k k' → ∀ (x y : Int),
          (let (marked, topAhead, bottomAhead) := if c ∈ k then (k.erase c, x - 1, y) else (c :: k, x, y + 1)
            if topAhead = 0 ∧ bottomAhead = 0 then (.ok (n + 1) : M ℕ) else IET.reduceLoop l m marked topAhead bottomAhead (n + 1)) =
          (let (marked, topAhead, bottomAhead) := if d ∈ k' then (k'.erase d, x - 1, y) else (d :: k', x, y + 1)
            if topAhead = 0 ∧ bottomAhead = 0 then (.ok (n + 1) : M ℕ) else IET.reduceLoop l' m' marked topAhead bottomAhead (n + 1)) := by
        intro k k' hk x y
        by_cases e : c ∈ k
        · rw [if_pos e, if_pos ((forall₂_mem hQ g1 hk).1 e)]
          simp only [ih g2 (forall₂_erase hQ g1 hk)]
        · rw [if_neg e, if_neg (fun q => e ((forall₂_mem hQ g1 hk).2 q))]
          simp only [ih g2 (List.Forall₂.cons g1 hk)]
      unfold IET.reduceLoop
      by_cases e : a ∈ k
      · rw [if_pos e, if_pos ((forall₂_mem hQ h1 hk).1 e)]
        exact key (forall₂_erase hQ h1 hk) x (y - 1)
      · rw [if_neg e, if_neg (fun q => e ((forall₂_mem hQ h1 hk).2 q))]
        exact key (.cons h1 hk) (x + 1) y

include hQ hO in
theorem IET.Rel.reduce {E F : IET T} (h : IET.Rel Q E F) {s : σ} {t : σ'} (hs : R s t) :
    RelM (fun p q => OptRel (IET.Rel Q) p.1 q.1 ∧ IET.Rel Q p.2 q.2) (E.reduce O s) (F.reduce O' t) := by
  unfold IET.reduce
  rw [reduceLoop_rel hQ h.top h.bottom .nil]
  refine (RelM.of_eq' rfl).bind ?_
  rintro k _ rfl
  rw [h.top.length_eq, h.bottom.length_eq]
  refine RelM.ite Iff.rfl (fun _ _ => ?_) (fun _ _ => ?_)
  · exact (RelM.assertM rfl).bind (fun _ _ _ => ⟨.none, h⟩)
  · refine (RelM.assertM ?_).bind (fun _ _ _ => ?_)
    · simp only [(forall₂_take h.top k).length_eq, (forall₂_take h.bottom k).length_eq]
    · refine (IET.Rel.mk? hQ hO (forall₂_drop h.top k) (forall₂_drop h.bottom k) hs).bind ?_
      intro u v huv
      exact ⟨.some huv, forall₂_take h.top k, forall₂_take h.bottom k, rfl, h.swapped, h.tracker⟩

include hQ hO in
theorem IET.Rel.reset {E F : IET T} (h : IET.Rel Q E F) {s : σ} {t : σ'} (hs : R s t) :
    RelM (Tracker.Rel Q) (E.trackerReset O s) (F.trackerReset O' t) := by
  unfold IET.trackerReset
  refine (hO.forget hs).bind ?_
  intro f g hfg
  refine (hfg.only hQ h.top).bind ?_
  intro f' g' hfg'
  refine ⟨by rw [h.tracker.periodBound], h.tracker.periodBound, h.top, ?_, hfg'⟩
  have hlen := h.top.length_eq
  have htop := h.top
  simp only [hlen]
  have hb := h.bottom
  generalize E.bottom = l, F.bottom = l' at hb
  induction hb with
  | nil => rfl
  | @cons a b l l' h1 h2 ih =>
    rw [List.flatMap_cons, List.flatMap_cons, ih]
    congr 1
    refine List.filter_congr (fun pos _ => ?_)
    rcases forall₂_getElem? htop pos with ⟨e1, e2⟩ | ⟨x, y, e1, e2, e3⟩
    · rw [e1, e2]; simp
    · rw [e1, e2]
      simp only [Option.some.injEq, eq_iff_of_biUnique hQ e3 h1]

include hQ in
theorem samePermutation_rel {top top' : List Label} (ht : List.Forall₂ Q top top') {l l' : List Label} (hl : List.Forall₂ Q l l') :
    ∀ ps, IET.samePermutation top l ps = IET.samePermutation top' l' ps := by
  induction hl with
  | nil => intro ps; simp only [IET.samePermutation]
  | cons h1 h2 ih =>
    intro ps
    cases ps with
    | nil => simp only [IET.samePermutation]
    | cons pos ps =>
      unfold IET.samePermutation
      rcases forall₂_getElem? ht pos with ⟨e1, e2⟩ | ⟨x, y, e1, e2, e3⟩
      · rw [e1, e2]
      · rw [e1, e2]
        simp only [ne_eq, eq_iff_of_biUnique hQ h1 e3, ih]

include hO in
theorem allSimilar_rel {u v : SLengths T} (huv : SLengths.Rel Q u v) {s : σ} {t : σ'} (hs : R s t) {l l' : List Label} (hl : List.Forall₂ Q l l') :
    IET.allSimilar O u s l = IET.allSimilar O' v t l' := by
  induction hl with
  | nil => rfl
  | cons h1 h2 ih =>
    cases h2 with
    | nil => rfl
    | cons g1 g2 =>
      unfold IET.allSimilar
      rw [ih]
      simp only [SLengths.similar, huv.at' h1, huv.at' g1, hO.get h1 hs, hO.get g1 hs]

include hQ hO in
theorem IET.Rel.trackerLoop {E F : IET T} (h : IET.Rel Q E F) {s : σ} {t : σ'} (hs : R s t) :
    RelM (fun p q => p.1 = q.1 ∧ IET.Rel Q p.2 q.2) (E.trackerLoop O s) (F.trackerLoop O' t) := by
  unfold IET.trackerLoop
  have ht := h.tracker
  refine RelM.ite (by rw [ht.ttl]) (fun _ _ => ?_) (fun _ _ => ?_)
  · refine (h.reset hQ hO hs).bind ?_
    intro u v huv
    exact ⟨rfl, h.top, h.bottom, h.safCache, h.swapped, huv⟩
  · have h' : IET.Rel Q { E with tracker := { E.tracker with ttl := E.tracker.ttl - 1 } } { F with tracker := { F.tracker with ttl := F.tracker.ttl - 1 } } :=
      ⟨h.top, h.bottom, h.safCache, h.swapped, ht.periodBound, by simp only [ht.ttl], ht.top, ht.bottom, ht.lengths⟩
    refine RelM.ite (by simp only [IET.size, h.top.length_eq, ht.top.length_eq]) (fun _ _ => ⟨rfl, h'⟩) (fun _ _ => ?_)
    simp only
    rw [show IET.samePermutation E.top E.bottom E.tracker.bottom = IET.samePermutation F.top F.bottom F.tracker.bottom by
      rw [samePermutation_rel hQ h.top h.bottom, ht.bottom]]
    refine (RelM.of_eq' rfl).bind ?_
    rintro x _ rfl
    refine RelM.ite Iff.rfl (fun _ _ => ⟨rfl, h'⟩) (fun _ _ => ?_)
    rw [allSimilar_rel hO ht.lengths hs ht.top]
    refine (RelM.of_eq' rfl).bind ?_
    rintro x _ rfl
    exact ⟨rfl, h'⟩

include hQ hO in
theorem IET.Rel.trackStep (z : Bool) {E F : IET T} (h : IET.Rel Q E F) {s : σ} {t : σ'} (hs : R s t) :
    RelM (fun p q => p.1 = q.1 ∧ IET.Rel Q p.2 q.2) (E.trackStep O z s) (F.trackStep O' z t) := by
  unfold IET.trackStep
  refine RelM.ite Iff.rfl (fun _ _ => ?_) (fun _ _ => ⟨rfl, h⟩)
  refine (h.saf hQ hO hs).bind ?_
  rintro ⟨v, E'⟩ ⟨w, F'⟩ ⟨e, h'⟩
  cases e
  exact RelM.ite Iff.rfl (fun _ _ => ⟨rfl, h'⟩) (fun _ _ => IET.Rel.trackerLoop hQ hO h' hs)

include hQ hO in
theorem IET.Rel.induceLoop (z : Bool) : ∀ (n : ℕ) {E F : IET T}, IET.Rel Q E F → ∀ {s : σ} {t : σ'}, R s t →
    RelM (fun p q => p.1 = q.1 ∧ IET.Rel Q p.2.1 q.2.1 ∧ R p.2.2 q.2.2) (IET.induceLoop O z n E s) (IET.induceLoop O' z n F t)
  | 0, _, _, h, _, _, hs => ⟨rfl, h, hs⟩
  | n + 1, E, F, h, s, t, hs => by
    unfold IET.induceLoop
    refine (h.trackStep hQ hO z hs).bind ?_
    rintro ⟨v, E₁⟩ ⟨w, F₁⟩ ⟨e, h₁⟩
    cases e
    refine RelM.ite Iff.rfl (fun _ _ => ⟨rfl, h₁, hs⟩) (fun _ _ => ?_)
    refine (IET.Rel.zorich hQ hO h₁ hs).bind ?_
    rintro ⟨v, E₂, s₂⟩ ⟨w, F₂, t₂⟩ ⟨e, h₂, hs₂⟩
    cases e
    refine RelM.ite Iff.rfl (fun _ _ => ⟨rfl, h₂, hs₂⟩) (fun _ _ => ?_)
    refine (IET.Rel.zorich hQ hO (IET.Rel.swap h₂) hs₂).bind ?_
    rintro ⟨v, E₃, s₃⟩ ⟨w, F₃, t₃⟩ ⟨e, h₃, hs₃⟩
    cases e
    exact RelM.ite Iff.rfl (fun _ _ => ⟨rfl, IET.Rel.swap h₃, hs₃⟩) (fun _ _ => IET.Rel.induceLoop z n (IET.Rel.swap h₃) hs₃)

include hQ hO in
theorem IET.Rel.inducePhase (fuel : ℕ) (limit : ℤ) {E F : IET T} (h : IET.Rel Q E F) {s : σ} {t : σ'} (hs : R s t) :
    RelM (fun p q => p.1 = q.1 ∧ IET.Rel Q p.2.1 q.2.1 ∧ R p.2.2 q.2.2) (E.inducePhase O fuel limit s) (F.inducePhase O' fuel limit t) := by
  unfold IET.inducePhase
  refine RelM.ite Iff.rfl (fun _ _ => ⟨rfl, h, hs⟩) (fun _ _ => ?_)
  refine (h.saf0 hQ hO hs).bind ?_
  rintro ⟨v, E₁⟩ ⟨w, F₁⟩ ⟨e, h₁⟩
  cases e
  refine RelM.ite Iff.rfl (fun _ _ => ?_) (fun _ _ => IET.Rel.induceLoop hQ hO v _ h₁ hs)
  refine (IET.Rel.induceLoop hQ hO v _ h₁ hs).bind ?_
  rintro ⟨v, E₂, s₂⟩ ⟨w, F₂, t₂⟩ ⟨e, h₂, hs₂⟩
  cases e
  exact RelM.ite Iff.rfl (fun _ _ => RelM.error _) (fun _ _ => ⟨rfl, h₂, hs₂⟩)

include hQ in
theorem mergeBottom_rel {a b a' b' : Label} (hab : Q a b) (hab' : Q a' b') {l l' : List Label} (hl : List.Forall₂ Q l l') :
    List.Forall₂ Q (IET.mergeBottom a a' l) (IET.mergeBottom b b' l') := by
  induction hl with
  | nil => exact .nil
  | @cons c d l l' h1 h2 ih =>
    unfold IET.mergeBottom
    by_cases e : c = a'
    · rw [if_pos e, if_pos ((eq_iff_of_biUnique hQ h1 hab').1 e)]; exact .cons hab h2
    · rw [if_neg e, if_neg (fun q => e ((eq_iff_of_biUnique hQ h1 hab').2 q))]; exact .cons h1 ih

include hQ hO in
theorem IET.Rel.induceFinish (L : PPL) (found : Bool) {E F : IET T} (h : IET.Rel Q E F) {s : σ} {t : σ'} (hs : R s t) :
    RelM (fun p q => InductionStep.Rel Q p.1 q.1 ∧ IET.Rel Q p.2 q.2) (E.induceFinish L O found s) (F.induceFinish L O' found t) := by
  unfold IET.induceFinish
  refine (h.reduce hQ hO hs).bind ?_
  rintro ⟨r, E₁⟩ ⟨r', F₁⟩ ⟨hr, h₁⟩
  simp only at hr h₁
  cases hr with
  | some hr =>
    simp only
    have hb := forall₂_getLast? h₁.bottom
    have ht := forall₂_getLast? h₁.top
    generalize E₁.bottom.getLast? = x, F₁.bottom.getLast? = x' at hb
    generalize E₁.top.getLast? = y, F₁.top.getLast? = y' at ht
    cases hb with
    | none => exact RelM.error _
    | some hb =>
      cases ht with
      | none => exact RelM.error _
      | some ht => exact ⟨⟨rfl, .some ⟨hb, ht⟩, .some hr⟩, h₁⟩
  | none =>
    simp only
    have ht := h₁.top
    have hb := h₁.bottom
    generalize E₁.top = x, F₁.top = x' at ht
    generalize E₁.bottom = y, F₁.bottom = y' at hb
    cases ht with
    | nil => exact RelM.error _
    | cons a1 a2 =>
      cases hb with
      | nil => exact RelM.error _
      | cons b1 b2 =>
        simp only
        rw [hO.cmp2 a1 b1 hs]
        refine (RelM.of_eq' rfl).bind ?_
        rintro z _ rfl
        refine RelM.ite Iff.rfl (fun _ _ => ⟨⟨rfl, .some ⟨b1, a1⟩, .none⟩, a2, mergeBottom_rel hQ b1 a1 b2, h₁.safCache, h₁.swapped, h₁.tracker⟩) (fun _ _ => ?_)
        refine (RelM.assertM rfl).bind (fun _ _ _ => ?_)
        refine (h₁.bosh hQ hO L hs).bind ?_
        rintro ⟨v, E₂⟩ ⟨w, F₂⟩ ⟨e, h₂⟩
        cases e
        exact RelM.ite Iff.rfl (fun _ _ => ⟨⟨rfl, .none, .none⟩, h₂⟩) (fun _ _ => ⟨⟨rfl, .none, .none⟩, h₂⟩)

include hQ hO in
theorem IET.Rel.induce (L : PPL) (fuel : ℕ) (limit : ℤ) {E F : IET T} (h : IET.Rel Q E F) {s : σ} {t : σ'} (hs : R s t) :
    RelM (fun p q => InductionStep.Rel Q p.1 q.1 ∧ IET.Rel Q p.2.1 q.2.1 ∧ R p.2.2 q.2.2) (E.induce L O fuel limit s) (F.induce L O' fuel limit t) := by
  unfold IET.induce
  refine RelM.ite (by rw [h.size]) (fun _ _ => ⟨⟨rfl, .none, .none⟩, h, hs⟩) (fun _ _ => ?_)
  refine (h.inducePhase hQ hO fuel limit hs).bind ?_
  rintro ⟨v, E₁, s₁⟩ ⟨w, F₁, t₁⟩ ⟨e, h₁, hs₁⟩
  cases e
  refine RelM.ite Iff.rfl (fun _ _ => ⟨⟨rfl, .none, .none⟩, h₁, hs₁⟩) (fun _ _ => ?_)
  refine (IET.Rel.induceFinish hQ hO L _ h₁ hs₁).bind ?_
  rintro ⟨x, E₂⟩ ⟨y, F₂⟩ ⟨h2, h3⟩
  exact ⟨h2, h3, hs₁⟩

/-! ### Programs -/

/-- The same IETs for labels with other names. -/
structure World.Rel (Q : Label → Label → Prop) (R : σ → σ' → Prop) (w : World σ T) (w' : World σ' T) : Prop where
  pieces : List.Forall₂ (IET.Rel Q) w.pieces w'.pieces
  lengths : R w.lengths w'.lengths

include hQ hO in
theorem Op.call_rel (L : PPL) (fuel : ℕ) (op : Op) {E F : IET T} (h : IET.Rel Q E F) {s : σ} {t : σ'} (hs : R s t) :
    RelM (fun p q => List.Forall₂ (IET.Rel Q) p.1 q.1 ∧ IET.Rel Q p.2.1 q.2.1 ∧ R p.2.2 q.2.2) (op.call L O fuel E s) (op.call L O' fuel F t) := by
  have toList : ∀ {x y : Option (IET T)}, OptRel (IET.Rel Q) x y → List.Forall₂ (IET.Rel Q) x.toList y.toList := by
    intro x y hxy
    cases hxy with
    | none => exact .nil
    | some h => exact .cons h .nil
  cases op with
  | zorichInduction i => exact (h.zorich hQ hO hs).bind (fun _ _ h1 => ⟨.nil, h1.2⟩)
  | swap i => exact ⟨.nil, h.swap, hs⟩
  | reduce i => exact (h.reduce hQ hO hs).bind (fun _ _ h1 => ⟨toList h1.1, h1.2, hs⟩)
  | induce i limit => exact (h.induce hQ hO L fuel limit hs).bind (fun _ _ h1 => ⟨toList h1.1.additional, h1.2⟩)
  | safInvariant i => exact (h.safInvariant hQ hO hs).bind (fun _ _ h1 => ⟨.nil, h1.2, hs⟩)
  | boshernitzanNoPeriodicTrajectory i => exact (h.bosh hQ hO L hs).bind (fun _ _ h1 => ⟨.nil, h1.2, hs⟩)

include hQ hO in
theorem Op.exec_rel (L : PPL) (fuel : ℕ) (op : Op) {w : World σ T} {w' : World σ' T} (h : World.Rel Q R w w') :
    RelM (World.Rel Q R) (op.exec L O fuel w) (op.exec L O' fuel w') := by
  unfold Op.exec
  rcases forall₂_getElem? h.pieces op.index with ⟨e1, e2⟩ | ⟨E, F, e1, e2, h1⟩
  · rw [e1, e2]; exact h
  · rw [e1, e2]
    refine (Op.call_rel hQ hO L fuel op h1 h.lengths).bind ?_
    rintro ⟨new, E', s'⟩ ⟨new', F', t'⟩ ⟨h2, h3, h4⟩
    exact ⟨forall₂_append (forall₂_set h.pieces (fun _ _ _ _ _ _ h => h) h3) h2, h4⟩

end iet

end Verif
