import Verif.Model.Registrar

/-!
# C92: types of lengths are registered for pickling exactly once

In a Python session, each type of lengths is registered with cereal at most once, and when something is pickled then all the types that have been used are registered,
except for those with GMP entries which are never registered.
-/

namespace Verif

/-- The Python sessions: the sequences of calls (the last one comes first in the list) in which the set of known types is visited in any order. -/
inductive Session (N : EntryType → String) : List SessionOp → Registrar → Prop
  | init : Session N [] .init
  | lengths {ops : List SessionOp} {r : Registrar} (n : ℕ) (t : EntryType) (h : Option (List String)) : Session N ops r →
      Session N (.lengths n t h :: ops) ((SessionOp.lengths n t h).exec N r)
  | pickle {ops : List SessionOp} {r : Registrar} {order : List (String × List String)} : Session N ops r → order.Perm r.known →
      Session N (.pickle order :: ops) ((SessionOp.pickle order).exec N r)

/-- What cppyy calls the types: those with GMP entries are spelled as in the code up to spaces, the others are not. -/
structure CppNames (N : EntryType → String) : Prop where
  mpz : stripSpaces (N .mpz) = mpzName
  mpq : stripSpaces (N .mpq) = mpqName
  ne : ∀ t, t ≠ .mpz → t ≠ .mpq → stripSpaces (N t) ≠ mpzName ∧ stripSpaces (N t) ≠ mpqName

/-- The call `Lengths()` succeeds with these headers. -/
def SessionOp.Creates (op : SessionOp) (t : EntryType) (h : List String) : Prop :=
  ∃ n, 0 < n ∧ (op = .lengths n t (some h) ∨ (op = .lengths n t none ∧ Registrar.defaultHeaders t = some h))

theorem Registrar.lengths_spec (N : EntryType → String) (n : ℕ) (t : EntryType) (h : Option (List String)) (r : Registrar) :
    (r.lengths N n t h = none ∧ ∀ t' h', ¬ (SessionOp.lengths n t h).Creates t' h') ∨
    ∃ h', r.lengths N n t h = some (({ r with log := r.log ++ h'.map RegEvent.includes } : Registrar).track (N t) h') ∧ (SessionOp.lengths n t h).Creates t h' ∧
      ∀ t₁ h₁, (SessionOp.lengths n t h).Creates t₁ h₁ → t₁ = t ∧ h₁ = h' := by
  unfold Registrar.lengths
  by_cases hn : n = 0
  · left
    refine ⟨by simp [hn], ?_⟩
    rintro t' h' ⟨m, hm, e | ⟨e, -⟩⟩ <;> (cases e; omega)
  · rw [if_neg hn]
    cases h with
    | some h =>
      right
      refine ⟨h, rfl, ⟨n, by omega, .inl rfl⟩, ?_⟩
      rintro t₁ h₁ ⟨m, hm, e | ⟨e, -⟩⟩ <;> cases e
      exact ⟨rfl, rfl⟩
    | none =>
      cases hd : Registrar.defaultHeaders t with
      | none =>
        left
        refine ⟨rfl, ?_⟩
        rintro t₁ h₁ ⟨m, hm, e | ⟨e, e'⟩⟩ <;> cases e
        rw [hd] at e'; cases e'
      | some h' =>
        right
        refine ⟨h', rfl, ⟨n, by omega, .inr ⟨rfl, hd⟩⟩, ?_⟩
        rintro t₁ h₁ ⟨m, hm, e | ⟨e, e'⟩⟩ <;> cases e
        rw [hd] at e'
        exact ⟨rfl, (Option.some.inj e').symm⟩

/-- The types that have been registered according to the log. -/
def Registrar.registrations (r : Registrar) : List String := r.log.filterMap (fun e => match e with | .register n => some n | _ => none)

/-- The invariant of sessions. -/
structure Registrar.Inv (N : EntryType → String) (ops : List SessionOp) (r : Registrar) : Prop where
  regs : r.registrations = r.registered
  nodup : r.registered.Nodup
  known : ∀ p, p ∈ r.known ↔ ∃ op ∈ ops, ∃ t h, op.Creates t h ∧ p = (N t, h)
  knownNodup : r.known.Nodup
  gmp : ∀ n ∈ r.registered, stripSpaces n ≠ mpzName ∧ stripSpaces n ≠ mpqName
  headers : ∀ pre n post, r.log = pre ++ .register n :: post → ∃ h, (n, h) ∈ r.known ∧ ∀ x ∈ h, RegEvent.includes x ∈ pre

theorem filterMap_include (h : List String) :
    (h.map RegEvent.includes).filterMap (fun e => match e with | .register n => some n | _ => none) = [] := by
  induction h with
  | nil => rfl
  | cons a h ih => simpa using ih

theorem append_include {l pre post : List RegEvent} {h : List String} {n : String} (e : l ++ h.map RegEvent.includes = pre ++ .register n :: post) :
    ∃ post', l = pre ++ .register n :: post' := by
  rcases List.append_eq_append_iff.mp e with ⟨a, h1, h2⟩ | ⟨a, h1, h2⟩
  · exfalso
    have : RegEvent.register n ∈ h.map RegEvent.includes := by rw [h2]; simp
    simp at this
  · cases a with
    | nil =>
      exfalso
      have : RegEvent.register n ∈ h.map RegEvent.includes := by
        rw [List.nil_append] at h2
        rw [← h2]; simp
      simp at this
    | cons x a =>
      rw [List.cons_append] at h2
      obtain ⟨rfl, -⟩ := List.cons.inj h2
      exact ⟨a, h1⟩

theorem append_one {l pre post : List RegEvent} {x : RegEvent} {n : String} (e : l ++ [x] = pre ++ .register n :: post) :
    (∃ post', l = pre ++ .register n :: post') ∨ (x = .register n ∧ pre = l) := by
  rcases List.append_eq_append_iff.mp e with ⟨a, h1, h2⟩ | ⟨a, h1, h2⟩
  · right
    cases a with
    | nil => simp at h1 h2; exact ⟨h2.1, h1⟩
    | cons y a => simp at h2
  · cases a with
    | nil =>
      right
      simp at h1 h2
      exact ⟨h2.1.symm, h1.symm⟩
    | cons y a =>
      rw [List.cons_append] at h2
      obtain ⟨rfl, -⟩ := List.cons.inj h2
      exact .inl ⟨a, h1⟩

theorem Registrar.Inv.visit {N : EntryType → String} {ops : List SessionOp} {r : Registrar} (h : r.Inv N ops) {p : String × List String} (hp : p ∈ r.known) :
    (r.visit p).Inv N ops ∧ (r.visit p).known = r.known ∧ (∀ n ∈ r.registered, n ∈ (r.visit p).registered) ∧ (∃ l, (r.visit p).log = r.log ++ l) ∧
    ((stripSpaces p.1 ≠ mpzName ∧ stripSpaces p.1 ≠ mpqName) → p.1 ∈ (r.visit p).registered) ∧
    ((stripSpaces p.1 = mpzName ∨ stripSpaces p.1 = mpqName) → (r.visit p).log = r.log ++ [.warn p.1]) := by
  have warn : ∀ n, ({ r with log := r.log ++ [.warn n] } : Registrar).Inv N ops := by
    intro n
    refine ⟨?_, h.nodup, h.known, h.knownNodup, h.gmp, ?_⟩
    · show (r.log ++ [RegEvent.warn n]).filterMap _ = _
      rw [List.filterMap_append]
      show r.registrations ++ [] = _
      rw [List.append_nil, h.regs]
    · intro pre m post e
      rcases append_one e with ⟨post', e'⟩ | ⟨e', -⟩
      · exact h.headers pre m post' e'
      · cases e'
  unfold Registrar.visit
  by_cases hr : p.1 ∈ r.registered
  · rw [if_neg (by simpa using hr)]
    have : r.add p.1 = r := by unfold Registrar.add; rw [if_pos hr]
    rw [this]
    refine ⟨h, rfl, fun _ h => h, ⟨[], by simp⟩, fun _ => hr, fun e => ?_⟩
    have := h.gmp _ hr
    rcases e with e | e
    · exact absurd e this.1
    · exact absurd e this.2
  · rw [if_pos hr]
    by_cases h1 : stripSpaces p.1 = mpzName
    · rw [if_pos h1]
      exact ⟨warn _, rfl, fun _ h => h, ⟨_, rfl⟩, fun e => absurd h1 e.1, fun _ => rfl⟩
    · rw [if_neg h1]
      by_cases h2 : stripSpaces p.1 = mpqName
      · rw [if_pos h2]
        exact ⟨warn _, rfl, fun _ h => h, ⟨_, rfl⟩, fun e => absurd h2 e.2, fun _ => rfl⟩
      · rw [if_neg h2]
        unfold Registrar.add
        rw [if_neg hr]
        refine ⟨⟨?_, ?_, h.known, h.knownNodup, ?_, ?_⟩, rfl, fun n hn => by simp [hn], ⟨p.2.map RegEvent.includes ++ [.register p.1], by simp⟩, fun _ => by simp, fun e => ?_⟩
        · show (r.log ++ p.2.map RegEvent.includes ++ [RegEvent.register p.1]).filterMap _ = r.registered ++ [p.1]
          rw [List.filterMap_append, List.filterMap_append, filterMap_include, List.append_nil]
          congr 1
          exact h.regs
        · show (r.registered ++ [p.1]).Nodup
          rw [List.nodup_append]
          exact ⟨h.nodup, by simp, by rintro a ha b hb rfl; simp at hb; exact hr (hb ▸ ha)⟩
        · intro n hn
          have hn : n ∈ r.registered ++ [p.1] := hn
          rcases List.mem_append.mp hn with hn | hn
          · exact h.gmp n hn
          · rw [List.mem_singleton.mp hn]; exact ⟨h1, h2⟩
        · intro pre m post e
          rcases append_one e with ⟨post', e'⟩ | ⟨e', e''⟩
          · obtain ⟨post'', e'⟩ := append_include e'
            exact h.headers pre m post'' e'
          · cases e'
            exact ⟨p.2, hp, fun x hx => by rw [e'']; simp [hx]⟩
        · rcases e with e | e
          · exact absurd e h1
          · exact absurd e h2

theorem Registrar.Inv.call {N : EntryType → String} {ops : List SessionOp} (order : List (String × List String)) : ∀ {r : Registrar}, r.Inv N ops →
    (∀ p ∈ order, p ∈ r.known) →
    (r.call order).Inv N ops ∧ (r.call order).known = r.known ∧ (∀ n ∈ r.registered, n ∈ (r.call order).registered) ∧
    ∃ l, (r.call order).log = r.log ++ l ∧ ∀ p ∈ order, 
    ((stripSpaces p.1 ≠ mpzName ∧ stripSpaces p.1 ≠ mpqName) → p.1 ∈ (r.call order).registered) ∧
    ((stripSpaces p.1 = mpzName ∨ stripSpaces p.1 = mpqName) → RegEvent.warn p.1 ∈ l) := by
  induction order with
  | nil => intro r h _; exact ⟨h, rfl, fun _ h => h, [], by simp [Registrar.call], by simp⟩
  | cons p order ih =>
    intro r h hk
    obtain ⟨g1, g2, g3, ⟨l₁, g4⟩, g5, g6⟩ := h.visit (hk p (by simp))
    obtain ⟨k1, k2, k3, l, k4, k5⟩ := ih g1 (fun q hq => by rw [g2]; exact hk q (by simp [hq]))
    have e : r.call (p :: order) = (r.visit p).call order := rfl
    rw [e]
    refine ⟨k1, k2.trans g2, fun n hn => k3 n (g3 n hn), l₁ ++ l, by rw [k4, g4, List.append_assoc], ?_⟩
    intro q hq
    rcases List.mem_cons.mp hq with rfl | hq
    · refine ⟨fun e => k3 _ (g5 e), fun e => ?_⟩
      have := g6 e
      rw [g4] at this
      rw [List.append_cancel_left this]
      simp
    · exact ⟨(k5 q hq).1, fun e => by simp [(k5 q hq).2 e]⟩

theorem Session.inv {N : EntryType → String} {ops : List SessionOp} {r : Registrar} (h : Session N ops r) : r.Inv N ops := by
  induction h with
  | init => exact ⟨rfl, by simp [Registrar.init], by simp [Registrar.init], by simp [Registrar.init], by simp [Registrar.init], by simp [Registrar.init]⟩
  | @lengths ops r n t h _ ih =>
    rcases Registrar.lengths_spec N n t h r with ⟨e, hc⟩ | ⟨h', e, hc, hu⟩
    · have e' : (SessionOp.lengths n t h).exec N r = r := by simp [SessionOp.exec, e]
      rw [e']
      refine ⟨ih.regs, ih.nodup, fun p => ?_, ih.knownNodup, ih.gmp, ih.headers⟩
      rw [ih.known]
      constructor
      · rintro ⟨op, hop, x⟩; exact ⟨op, by simp [hop], x⟩
      · rintro ⟨op, hop, t', h', hx, rfl⟩
        rcases List.mem_cons.mp hop with rfl | hop
        · exact absurd hx (hc _ _)
        · exact ⟨op, hop, t', h', hx, rfl⟩
    · have e' : (SessionOp.lengths n t h).exec N r = ({ r with log := r.log ++ h'.map RegEvent.includes } : Registrar).track (N t) h' := by simp [SessionOp.exec, e]
      rw [e']
      have f : ∀ r' : Registrar, r'.log = r.log ++ h'.map RegEvent.includes → r'.registered = r.registered → (∀ p, p ∈ r'.known ↔ p ∈ r.known ∨ p = (N t, h')) →
          r'.known.Nodup → r'.Inv N (.lengths n t h :: ops) := by
        intro r' f1 f2 f3 f4
        refine ⟨?_, by rw [f2]; exact ih.nodup, fun p => ?_, f4, by rw [f2]; exact ih.gmp, ?_⟩
        · unfold Registrar.registrations
          rw [f1, f2, List.filterMap_append, filterMap_include, List.append_nil]
          exact ih.regs
        · rw [f3, ih.known]
          constructor
          · rintro (⟨op, hop, x⟩ | rfl)
            · exact ⟨op, by simp [hop], x⟩
            · exact ⟨_, by simp, t, h', hc, rfl⟩
          · rintro ⟨op, hop, t₁, h₁, hx, rfl⟩
            rcases List.mem_cons.mp hop with rfl | hop
            · obtain ⟨rfl, rfl⟩ := hu _ _ hx
              exact .inr rfl
            · exact .inl ⟨op, hop, t₁, h₁, hx, rfl⟩
        · intro pre m post e
          rw [f1] at e
          obtain ⟨post', e⟩ := append_include e
          obtain ⟨h₁, k1, k2⟩ := ih.headers pre m post' e
          exact ⟨h₁, (f3 _).mpr (.inl k1), k2⟩
      unfold Registrar.track
      split
      · rename_i hm
        have hm : (N t, h') ∈ r.known := hm
        exact f _ rfl rfl (fun p => ⟨.inl, fun h => h.elim id (fun e => e ▸ hm)⟩) ih.knownNodup
      · rename_i hm
        have hm : (N t, h') ∉ r.known := hm
        refine f _ rfl rfl (fun p => by simp) ?_
        show (r.known ++ [(N t, h')]).Nodup
        rw [List.nodup_append]
        exact ⟨ih.knownNodup, by simp, by rintro a ha b hb rfl; rw [List.mem_singleton] at hb; exact hm (hb ▸ ha)⟩
  | @pickle ops r order _ ho ih =>
    obtain ⟨g1, -, -, -⟩ := ih.call order (fun p hp => ho.mem_iff.mp hp)
    have g1 : (SessionOp.exec N (.pickle order) r).Inv N ops := g1
    refine ⟨g1.regs, g1.nodup, fun p => ?_, g1.knownNodup, g1.gmp, g1.headers⟩
    rw [g1.known]
    constructor
    · rintro ⟨op, hop, x⟩; exact ⟨op, by simp [hop], x⟩
    · rintro ⟨op, hop, t', h', hx, rfl⟩
      rcases List.mem_cons.mp hop with rfl | hop
      · obtain ⟨n, -, e | ⟨e, -⟩⟩ := hx <;> cases e
      · exact ⟨op, hop, t', h', hx, rfl⟩

/-- **C92** No type is registered twice. -/
theorem C92_once {N : EntryType → String} {ops : List SessionOp} {r : Registrar} (h : Session N ops r) (n : String) : r.log.count (.register n) ≤ 1 := by
  have h1 := h.inv
  have h2 : (r.log.filterMap (fun e => match e with | .register n => some n | _ => none)).Nodup := by
    have := h1.nodup
    rw [← h1.regs] at this
    exact this
  revert h2
  generalize r.log = l
  intro h2
  induction l with
  | nil => simp
  | cons e l ih =>
    cases e with
    | includes x => simpa using ih (by simpa using h2)
    | warn x => simpa using ih (by simpa using h2)
    | register x =>
      have h2 : (x :: l.filterMap (fun e => match e with | .register n => some n | _ => none)).Nodup := h2
      rw [List.nodup_cons] at h2
      rw [List.count_cons]
      by_cases e : x = n
      · subst e
        have : l.count (.register x) = 0 := by
          rw [List.count_eq_zero]
          intro hx
          exact h2.1 (List.mem_filterMap.mpr ⟨_, hx, rfl⟩)
        simp [this]
      · simpa [e] using ih h2.2

/-- **C92** When something is pickled, all types of lengths that have been created without an exception are registered, except for those with GMP entries. -/
theorem C92_pickle {N : EntryType → String} (hN : CppNames N) {ops : List SessionOp} {r : Registrar} {order : List (String × List String)}
    (h : Session N (.pickle order :: ops) r) {op : SessionOp} (hop : op ∈ ops) {t : EntryType} {hs : List String} (hc : op.Creates t hs) (h1 : t ≠ .mpz) (h2 : t ≠ .mpq) :
    RegEvent.register (N t) ∈ r.log := by
  have hi := h.inv
  cases h with
  | @pickle _ r₀ _ h ho =>
    obtain ⟨-, -, -, l, -, g⟩ := h.inv.call order (fun p hp => ho.mem_iff.mp hp)
    have hk := (h.inv.known (N t, hs)).mpr ⟨op, hop, t, hs, hc, rfl⟩
    have := (g _ (ho.mem_iff.mpr hk)).1 (hN.ne t h1 h2)
    have this : N t ∈ (SessionOp.exec N (.pickle order) r₀).registered := this
    rw [← hi.regs] at this
    obtain ⟨e, he, he'⟩ := List.mem_filterMap.mp this
    cases e with
    | register n => cases he'; exact he
    | _ => cases he'

/-- **C92** When a type is registered, then headers that have been passed to `Lengths()`, or the default ones, have been included before. -/
theorem C92_headers {N : EntryType → String} {ops : List SessionOp} {r : Registrar} (h : Session N ops r) {pre post : List RegEvent} {n : String}
    (hl : r.log = pre ++ .register n :: post) : ∃ op ∈ ops, ∃ t hs, op.Creates t hs ∧ n = N t ∧ ∀ x ∈ hs, RegEvent.includes x ∈ pre := by
  obtain ⟨hs, h1, h2⟩ := h.inv.headers pre n post hl
  obtain ⟨op, hop, t, hs', hc, e⟩ := (h.inv.known _).mp h1
  cases e
  exact ⟨op, hop, t, hs, hc, rfl, h2⟩

/-- **C92** Types with GMP entries are never registered, and there is a warning every time that something is pickled after they have been used. -/
theorem C92_gmp {N : EntryType → String} (hN : CppNames N) {ops : List SessionOp} {r : Registrar} (h : Session N ops r) {t : EntryType} (ht : t = .mpz ∨ t = .mpq) :
    RegEvent.register (N t) ∉ r.log ∧
    ∀ op ∈ ops, ∀ hs, op.Creates t hs → ∀ order : List (String × List String), order.Perm r.known →
      ∃ l, ((SessionOp.pickle order).exec N r).log = r.log ++ l ∧ RegEvent.warn (N t) ∈ l := by
  have hgmp : stripSpaces (N t) = mpzName ∨ stripSpaces (N t) = mpqName := by
    rcases ht with rfl | rfl
    · exact .inl hN.mpz
    · exact .inr hN.mpq
  constructor
  · intro hm
    have hi := h.inv
    have : N t ∈ r.registrations := List.mem_filterMap.mpr ⟨_, hm, rfl⟩
    rw [hi.regs] at this
    have := hi.gmp _ this
    rcases hgmp with e | e
    · exact this.1 e
    · exact this.2 e
  · intro op hop hs hc order ho
    obtain ⟨-, -, -, l, g1, g2⟩ := h.inv.call order (fun p hp => ho.mem_iff.mp hp)
    have hk := (h.inv.known (N t, hs)).mpr ⟨op, hop, t, hs, hc, rfl⟩
    exact ⟨l, g1, (g2 _ (ho.mem_iff.mpr hk)).2 hgmp⟩

/-! ### An example -/

namespace Examples

/-- Names of the types. -/
def someNames : EntryType → String
  | .mpz => "intervalxt::cppyy::Lengths<std::vector<__gmp_expr<__mpz_struct[1], __mpz_struct[1]> > >"
  | .mpq => "intervalxt::cppyy::Lengths<std::vector<__gmp_expr<__mpq_struct[1], __mpq_struct[1]> > >"
  | .int => "intervalxt::cppyy::Lengths<std::vector<int>>"
  | .renf => "intervalxt::cppyy::Lengths<std::vector<eantic::renf_elem_class>>"
  | .elementInteger => "intervalxt::cppyy::Lengths<std::vector<exactreal::Element<exactreal::IntegerRing>>>"
  | .elementRational => "intervalxt::cppyy::Lengths<std::vector<exactreal::Element<exactreal::RationalField>>>"
  | .elementNumberField => "intervalxt::cppyy::Lengths<std::vector<exactreal::Element<exactreal::NumberField>>>"
  | .other s => "other:" ++ s

theorem someNames_cpp : CppNames someNames := by
  refine ⟨by decide +kernel, by decide +kernel, fun t h1 h2 => ?_⟩
  cases t with
  | mpz => exact absurd rfl h1
  | mpq => exact absurd rfl h2
  | other s =>
    constructor <;>
    · intro e
      have := congrArg (fun x : String => x.toList.head?) e
      simp [stripSpaces, someNames, mpzName, mpqName] at this
  | _ => exact ⟨by decide +kernel, by decide +kernel⟩

/-- The types known after some lengths have been created. -/
def known : List (String × List String) :=
  [(someNames .mpz, ["intervalxt/sample/mpz_coefficients.hpp", "intervalxt/sample/mpz_floor_division.hpp"]), (someNames .int, ["a.hpp"]),
    (someNames .int, ["intervalxt/sample/integer_coefficients.hpp", "intervalxt/sample/integer_floor_division.hpp"])]

end Examples

open Examples in
/-- A session in which integer lengths are created with different headers and pickled twice: they are registered once, there are two warnings for the lengths with GMP
entries. -/
example : ∃ r, Session someNames [.pickle known, .pickle known.reverse, .lengths 2 .int none, .lengths 0 .renf none, .lengths 1 .int (some ["a.hpp"]), .lengths 2 .mpz none] r ∧
    r.registered = [someNames .int] ∧ r.log.count (.register (someNames .int)) = 1 ∧ r.log.count (.warn (someNames .mpz)) = 2 := by
  refine ⟨_, .pickle (.pickle (.lengths 2 .int none (.lengths 0 .renf none (.lengths 1 .int (some ["a.hpp"]) (.lengths 2 .mpz none .init)))) ?_) ?_, ?_, ?_, ?_⟩
  · rw [show (SessionOp.exec someNames (.lengths 2 .int none) _).known = known from by decide +kernel]
    exact List.reverse_perm _
  · exact List.Perm.of_eq (by decide +kernel)
  · decide +kernel
  · decide +kernel
  · decide +kernel

end Verif
