import Verif.Proofs.PointerInduce
import Verif.Proofs.World
import Verif.Examples

/-!
# C34, C55: construction, twins, and iterators

Statements about list nodes and the iterators between them (`Verif.Model.Pointer`).
-/

namespace Verif

set_option linter.unusedSectionVars false

variable {σ T ε : Type} [CommRing T] [LinearOrder T] [IsStrictOrderedRing T] {O : LengthsOps σ T} {d : ℕ} {c : T →+ (Fin d → ℚ)}

/-- Specification: each node of one list is paired with exactly one node of the other list; both refer to each other and carry the
same label. -/
structure Paired (m : Mem) (ts bs : List Addr) : Prop where
  nodup : (ts ++ bs).Nodup
  top : ∀ t ∈ ts, ∃ b ∈ bs, ∃ l, m.node t = some ⟨l, some b⟩ ∧ m.node b = some ⟨l, some t⟩
  bottom : ∀ b ∈ bs, ∃ t ∈ ts, ∃ l, m.node t = some ⟨l, some b⟩ ∧ m.node b = some ⟨l, some t⟩

theorem Linked.paired {m : Mem} {ts bs : List Addr} (h : Linked m ts bs) : Paired m ts bs where
  nodup := List.nodup_append.2 ⟨h.nodupTop, h.nodupBottom, fun a ha b hb e => h.disj a ha (e ▸ hb)⟩
  top t ht := by
    obtain ⟨b, hb, h1, h2⟩ := h.pair t ht
    exact ⟨b, hb, _, h1, h2⟩
  bottom b hb := by
    obtain ⟨t, ht, h1, h2⟩ := h.pair' b hb
    exact ⟨t, ht, _, h2, h1⟩

/-! ### C34 -/

theorem nodup_of_dedup_length {l : List Label} (h : l.dedup.length = l.length) : l.Nodup := by
  have := (List.dedup_sublist l).eq_of_length h
  exact List.dedup_eq_self.1 this

theorem mapM_get_ok {s : σ} : ∀ {l : List Label}, (∀ a ∈ l, ∃ x, O.get a s = .ok x) →
    ∃ xs, l.mapM (fun a => O.get a s) = .ok xs ∧ List.Forall₂ (fun a x => O.get a s = .ok x) l xs
  | [], _ => ⟨[], rfl, .nil⟩
  | a :: l, h => by
    obtain ⟨x, hx⟩ := h a List.mem_cons_self
    obtain ⟨xs, h1, h2⟩ := mapM_get_ok (l := l) (fun b hb => h b (List.mem_cons_of_mem _ hb))
    refine ⟨x :: xs, ?_, .cons hx h2⟩
    rw [List.mapM_cons, hx, ok_bind, h1]; rfl

theorem forall₂_all {s : σ} : ∀ {l : List Label} {xs : List T}, List.Forall₂ (fun a x => O.get a s = .ok x) l xs →
    ((xs.all (fun x => decide (x ≠ 0))) = true ↔ ∀ a ∈ l, O.get a s ≠ .ok 0)
  | [], [], _ => by simp
  | a :: l, x :: xs, h => by
    obtain ⟨h1, h2⟩ := List.forall₂_cons.1 h
    rw [List.all_cons, Bool.and_eq_true, forall₂_all h2, List.forall_mem_cons, h1]
    simp

/-- The outcome of the constructor when the lengths of all labels are known. -/
theorem mk?_outcome (top bottom : List Label) (s : σ) (hg : ∀ a ∈ top, ∃ x, O.get a s = .ok x) :
    (IET.mk? O top bottom s : M (IET T)) =
      if top.length = bottom.length ∧ top.Nodup ∧ bottom.Nodup ∧ (∀ a ∈ top, O.get a s ≠ .ok 0) ∧ top ≠ [] then .ok (IET.fresh top bottom)
      else .error .assertFailed := by
  obtain ⟨xs, h1, h2⟩ := mapM_get_ok hg
  have h3 := forall₂_all h2
  unfold IET.mk?
  by_cases c1 : top.length = bottom.length
  swap
  · rw [assertM, if_neg (by simpa using c1), if_neg (by tauto)]; rfl
  rw [assertM, if_pos (by simpa using c1), ok_bind]
  by_cases c2 : top.dedup.length = bottom.dedup.length
  swap
  · rw [assertM, if_neg (by simpa using c2), if_neg]; · rfl
    rintro ⟨_, g1, g2, _⟩
    rw [List.dedup_eq_self.2 g1, List.dedup_eq_self.2 g2] at c2
    exact c2 c1
  rw [assertM, if_pos (by simpa using c2), ok_bind]
  by_cases c3 : top.dedup.length = top.length
  swap
  · rw [assertM, if_neg (by simpa using c3), if_neg]; · rfl
    rintro ⟨_, g1, _⟩
    rw [List.dedup_eq_self.2 g1] at c3
    exact c3 rfl
  rw [assertM, if_pos (by simpa using c3), ok_bind, h1, ok_bind]
  have n1 := nodup_of_dedup_length c3
  have n2 : bottom.Nodup := nodup_of_dedup_length (by rw [← c2, c3, c1])
  by_cases c4 : xs.all (fun x => decide (x ≠ 0)) = true
  swap
  · rw [assertM, if_neg c4, if_neg]; · rfl
    rintro ⟨_, _, _, g, _⟩
    exact c4 (h3.2 g)
  rw [assertM, if_pos c4, ok_bind]
  by_cases c5 : top = []
  · subst c5
    rw [assertM, if_neg (by simp), if_neg (by simp)]; rfl
  · rw [assertM, if_pos (by simpa using c5), if_pos ⟨c1, n1, n2, h3.1 c4, c5⟩]; rfl

/-- **C34.** Constructing an IET from duplicate-free lists with the same labels whose lengths are not zero succeeds, `top()` and
`bottom()` return the lists, and each interval is paired with the interval of the same label on the other side.  The nodes are new,
nothing else in memory changes. -/
theorem C34_construct (top bottom : List Label) (s : σ) (m : Mem) (hn : top.Nodup) (hp : bottom.Perm top) (hne : top ≠ [])
    (hg : ∀ a ∈ top, ∃ x, O.get a s = .ok x ∧ x ≠ 0) :
    ∃ (P : PIET T) (m' : Mem), PIET.mk? O top bottom s m = .ok (P, m') ∧ m'.labels P.top = .ok top ∧ m'.labels P.bottom = .ok bottom ∧
      P.swapped = false ∧ Paired m' P.top P.bottom ∧ (∀ a ∈ P.top ++ P.bottom, m.next ≤ a) ∧ ∀ a, a < m.next → m'.node a = m.node a := by
  have h1 := mk?_outcome (O := O) top bottom s (fun a ha => (hg a ha).imp fun _ h => h.1)
  rw [if_pos] at h1
  · obtain ⟨⟨P, m'⟩, h2, -, h3, h4⟩ := (mk?_made O top bottom s m).ok_left h1
    dsimp only at h3 h4
    have hL := h4.linked hn hp
    refine ⟨P, m', h2, ?_, ?_, by rw [h3], hL.paired, fun a ha => (h4.new a ha).1, h4.old⟩
    · rw [Mem.labels_ok (fun a ha => hL.live ha), h4.top]
    · rw [Mem.labels_ok (fun a ha => hL.live' ha), h4.bottom]
  · refine ⟨hp.length_eq.symm, hn, hp.nodup_iff.2 hn, ?_, hne⟩
    intro a ha e
    obtain ⟨x, h1, h2⟩ := hg a ha
    rw [h1] at e
    exact h2 (Except.ok.inj e)

example : ∃ (P : PIET ℤ) (m' : Mem), PIET.mk? (SLengths.ops intArith) [0, 1, 2, 3] [3, 2, 1, 0] Examples.intState Mem.empty = .ok (P, m') ∧
    P.top = [0, 1, 2, 3] ∧ P.bottom = [4, 5, 6, 7] ∧ m'.node 1 = some ⟨1, some 6⟩ := ⟨_, _, rfl, rfl, rfl, rfl⟩

/-- **C34.** Lists of different sizes, with duplicates, empty lists, and zero lengths are rejected by an assertion; everything else is
accepted. -/
theorem C34_rejected (top bottom : List Label) (s : σ) (m : Mem) (hg : ∀ a ∈ top, ∃ x, O.get a s = .ok x) :
    ((top.length ≠ bottom.length ∨ ¬ top.Nodup ∨ ¬ bottom.Nodup ∨ (∃ a ∈ top, O.get a s = .ok 0) ∨ top = []) →
      (PIET.mk? O top bottom s m : M (PIET T × Mem)) = .error .assertFailed) ∧
    ((top.length = bottom.length ∧ top.Nodup ∧ bottom.Nodup ∧ (∀ a ∈ top, O.get a s ≠ .ok 0) ∧ top ≠ []) →
      ∃ r, (PIET.mk? O top bottom s m : M (PIET T × Mem)) = .ok r) := by
  have h1 := mk?_outcome (O := O) top bottom s hg
  have h2 := mk?_made O top bottom s m
  rw [h1] at h2
  constructor
  · intro h
    rw [if_neg] at h2
    · cases h3 : (PIET.mk? O top bottom s m : M (PIET T × Mem)) with
      | ok r => rw [h3] at h2; exact h2.elim
      | error e => rw [h3] at h2; rw [← show _ = e from h2]
    · rintro ⟨g1, g2, g3, g4, g5⟩
      rcases h with h | h | h | ⟨a, h, h'⟩ | h
      · exact h g1
      · exact h g2
      · exact h g3
      · exact g4 a h h'
      · exact g5 h
  · intro h
    rw [if_pos h] at h2
    obtain ⟨r, h3, _⟩ := h2.ok_left rfl
    exact ⟨r, h3⟩

example : (PIET.mk? (SLengths.ops intArith) [0, 1] [1, 1] Examples.intState Mem.empty : M (PIET ℤ × Mem)).map (fun _ => ()) = .error .assertFailed ∧
    (PIET.mk? (SLengths.ops intArith) [0, 1] [1] Examples.intState Mem.empty : M (PIET ℤ × Mem)).map (fun _ => ()) = .error .assertFailed ∧
    (PIET.mk? (SLengths.ops intArith) [0, 1] [1, 0] ⟨[], [1, 0]⟩ Mem.empty : M (PIET ℤ × Mem)).map (fun _ => ()) = .error .assertFailed := by
  decide

/-- **C34.** Different labels are not detected: when the constructor accepts lists of labels, the twin of an interval whose label does not
occur on the other side is a singular iterator.  If this is the first interval, `reduce()` is undefined behaviour. -/
theorem C34_undetected (top bottom : List Label) (s : σ) (m : Mem) {P : PIET T} {m' : Mem} (h : PIET.mk? O top bottom s m = .ok (P, m')) :
    (∀ t ∈ P.top, ∃ l tw, m'.node t = some ⟨l, tw⟩ ∧ (tw = none ↔ l ∉ bottom)) ∧
    (∀ b ∈ P.bottom, ∃ l tw, m'.node b = some ⟨l, tw⟩ ∧ (tw = none ↔ l ∉ top)) ∧
    (∀ a rest, top = a :: rest → bottom ≠ [] → a ∉ bottom → P.reduce O s m' = .error .ub) := by
  obtain ⟨E, _, -, h3, h4⟩ := (mk?_made O top bottom s m).symm.ok_left h
  dsimp only at h3 h4
  have key : ∀ t ∈ P.top, ∃ l tw, m'.node t = some ⟨l, tw⟩ ∧ (tw = none ↔ l ∉ bottom) := by
    intro t ht
    refine ⟨_, _, h4.nodeTop t ht, ?_⟩
    rw [lastWith_none, h4.bottom]
  refine ⟨key, ?_, ?_⟩
  · intro t ht
    refine ⟨_, _, h4.nodeBottom t ht, ?_⟩
    rw [lastWith_none, h4.top]
  · intro a rest ht hb ha
    have h5 := h4.top
    have h6 := h4.bottom
    rcases hT : P.top with _ | ⟨t, ts⟩
    · rw [hT, ht] at h5; simp at h5
    rcases hB : P.bottom with _ | ⟨b, bs⟩
    · rw [hB] at h6; exact absurd h6.symm hb
    rw [hT, ht] at h5
    have h7 : m'.lab t = a := by simpa using (List.cons.inj h5).1
    have h8 := h4.nodeTop t (by rw [hT]; exact List.mem_cons_self)
    rw [h7] at h8
    have h9 : lastWith m' a P.bottom = none := by rw [lastWith_none, h6]; exact ha
    rw [h9] at h8
    unfold PIET.reduce
    rw [hT, hB]
    simp only [PIET.reduceLoop, Mem.flip]
    rw [Mem.label_ok ⟨_, h8⟩, ok_bind, Mem.twin, Mem.read_ok h8]
    rfl

/-- **C34.** Examples of malformed input that is accepted: different labels (so that `reduce()` is undefined behaviour), and negative lengths. -/
theorem C34_undetected_cases :
    (∃ P m', PIET.mk? (SLengths.ops intArith) [1, 0] [0, 2] ⟨[], [7, 3, 4]⟩ Mem.empty = .ok (P, m') ∧
      (P.reduce (SLengths.ops intArith) ⟨[], [7, 3, 4]⟩ m').map (fun _ => ()) = .error .ub) ∧
    (∃ P m', PIET.mk? (SLengths.ops intArith) [0, 1] [1, 0] ⟨[], [-7, 3]⟩ Mem.empty = .ok (P, m')) :=
  ⟨⟨_, _, rfl, rfl⟩, ⟨_, _, rfl⟩⟩

/-! ### C55 -/

/-- Specification: the states a user can get to.  They create IETs with valid lists of labels not used by another of their IETs, and call
operations. -/
inductive PReachable (H : LawfulLengths O c ε) (L : PPL) : PWorld σ T → Prop
  | init {s : σ} : PReachable H L ⟨[], s, Mem.empty⟩
  | new {w : PWorld σ T} {top bottom : List Label} {P : PIET T} {m : Mem} : PReachable H L w →
      H.Ok (IET.fresh top bottom) w.lengths → (∀ Q ∈ w.pieces, ∀ a ∈ Q.top, ∀ n, w.mem.node a = some n → n.label ∉ top) →
      PIET.mk? O top bottom w.lengths w.mem = .ok (P, m) → PReachable H L ⟨w.pieces ++ [P], w.lengths, m⟩
  | step {w w' : PWorld σ T} (fuel : ℕ) (op : Op) : PReachable H L w → op.pexec L O fuel w = .ok w' → PReachable H L w'

theorem PReachable.rep {H : LawfulLengths O c ε} {L : PPL} (hL : L.Lawful) {pw : PWorld σ T} (h : PReachable H L pw) :
    ∃ w, H.WorldOk w ∧ RepWorld w pw := by
  induction h with
  | @init s => exact ⟨⟨[], s⟩, ⟨by simp, by simp⟩, ⟨fun _ _ => rfl, rfl, .nil, by simp⟩⟩
  | @step pw pw' fuel op _ he ih =>
    obtain ⟨w, h1, h2⟩ := ih
    obtain ⟨w', h3, h4⟩ := (exec_rep L O fuel op h2).symm.ok_left he
    rcases Op.exec_spec H hL fuel op w h1 with ⟨h5, _⟩ | ⟨w'', h5, h6⟩
    · rw [h3] at h5; cases h5
    · rw [h3] at h5; cases h5
      exact ⟨w', h6.ok, h4⟩
  | @new pw top bottom P m _ hok hd he ih =>
    obtain ⟨w, h1, h2⟩ := ih
    obtain ⟨E, hE, rfl, h3, h4⟩ := (mk?_made O top bottom pw.lengths pw.mem).symm.ok_left he
    dsimp only at h3 h4
    have hv := hok.valid
    have hLk : Linked m P.top P.bottom := h4.linked hv.nodup hv.perm
    have hrep : Rep m P (IET.fresh top bottom) := by
      refine ⟨hLk, h4.top, h4.bottom, ?_, ?_, ?_⟩ <;> rw [h3] <;> rfl
    have lt : ∀ Q ∈ pw.pieces, ∀ a ∈ Q.nodes, a < pw.mem.next := by
      intro Q hQ a ha
      obtain ⟨j, hj, rfl⟩ := List.getElem_of_mem hQ
      have hF := h2.reps.get hj (h2.reps.length_eq ▸ hj)
      have hlive : pw.mem.Live a := by
        rcases List.mem_append.1 ha with h1 | h1
        · exact hF.linked.live h1
        · exact hF.linked.live' h1
      obtain ⟨n, hn⟩ := hlive
      by_contra hc
      rw [h2.ok a (by omega)] at hn
      exact absurd hn (by simp)
    refine ⟨⟨w.pieces ++ [IET.fresh top bottom], w.lengths⟩, ⟨?_, ?_⟩, ⟨h4.ok h2.ok, h2.lengths, ?_, ?_⟩⟩
    · intro F hF
      rcases List.mem_append.1 hF with hF | hF
      · exact h1.good F hF
      · rw [List.mem_singleton] at hF
        subst hF
        rw [← h2.lengths] at hok
        exact LawfulLengths.Good.fresh hok
    · rw [List.pairwise_append]
      refine ⟨h1.disjoint, by simp, ?_⟩
      intro F hF G hG a ha
      rw [List.mem_singleton] at hG
      subst hG
      obtain ⟨j, hj, rfl⟩ := List.getElem_of_mem hF
      have hj' : j < pw.pieces.length := h2.reps.length_eq ▸ hj
      have hQ := h2.reps.get hj' hj
      simp only [List.get_eq_getElem] at hQ
      rw [← hQ.top] at ha
      obtain ⟨t, ht, e⟩ := List.mem_map.1 ha
      obtain ⟨n, hn⟩ := hQ.linked.live ht
      have := hd _ (List.getElem_mem hj') t ht n hn
      rw [← Mem.lab_of_node hn, e] at this
      exact this
    · refine List.rel_append ?_ (.cons hrep .nil)
      have := h2.reps
      rw [List.forall₂_iff_get] at this ⊢
      refine ⟨this.1, fun i hi hi' => ?_⟩
      exact (this.2 i hi hi').frame (fun a ha => h4.old a (lt _ (List.getElem_mem hi) a ha))
    · rw [List.pairwise_append]
      refine ⟨h2.disj, by simp, ?_⟩
      intro Q hQ F hF a ha hb
      rw [List.mem_singleton] at hF
      subst hF
      have h5 := lt Q hQ a ha
      have h6 := (h4.new a hb).1
      omega

/-- **C55.** No call ever follows an invalid iterator: each call returns, unless it is an `induce(-1)` which does not end. -/
theorem C55_no_invalid_iterator (H : LawfulLengths O c ε) {L : PPL} (hL : L.Lawful) {w : PWorld σ T} (h : PReachable H L w) (fuel : ℕ) (op : Op) :
    (op.pexec L O fuel w = .error .fuel ∧ ∃ i, op = .induce i (-1)) ∨ ∃ w', op.pexec L O fuel w = .ok w' ∧ PReachable H L w' := by
  obtain ⟨w₀, h1, h2⟩ := h.rep hL
  have hs := exec_rep L O fuel op h2
  rcases Op.exec_spec H hL fuel op w₀ h1 with ⟨h3, h4⟩ | ⟨w', h3, _⟩
  · rw [h3] at hs
    left
    cases h5 : op.pexec L O fuel w with
    | ok r => rw [h5] at hs; exact hs.elim
    | error e => rw [h5] at hs; rw [← show _ = e from hs]; exact ⟨rfl, h4⟩
  · rw [h3] at hs
    obtain ⟨pw', h5, _⟩ := hs.ok_left rfl
    exact .inr ⟨pw', h5, .step fuel op h h5⟩

/-- **C55.** After any calls, intervals are paired and no two IETs share nodes. -/
theorem C55_paired (H : LawfulLengths O c ε) {L : PPL} (hL : L.Lawful) {w : PWorld σ T} (h : PReachable H L w) :
    (∀ P ∈ w.pieces, Paired w.mem P.top P.bottom) ∧
      w.pieces.Pairwise (fun P Q => ∀ a, a ∈ P.top ∨ a ∈ P.bottom → a ∉ Q.top ∧ a ∉ Q.bottom) := by
  obtain ⟨w₀, _, h2⟩ := h.rep hL
  constructor
  · intro P hP
    obtain ⟨j, hj, rfl⟩ := List.getElem_of_mem hP
    exact (h2.reps.get hj (h2.reps.length_eq ▸ hj)).linked.paired
  · refine h2.disj.imp ?_
    intro P Q hPQ a ha
    have := hPQ a (List.mem_append.2 ha)
    exact ⟨fun h => this (List.mem_append_left _ h), fun h => this (List.mem_append_right _ h)⟩

/-- **C55.** The functions on list nodes return the same as the functions on lists of labels, and the labels afterwards are the same; in
particular the bits that are flipped in `reduce` are flipped back. -/
theorem C55_same_as_labels (H : LawfulLengths O c ε) {L : PPL} (hL : L.Lawful) {w : PWorld σ T} (h : PReachable H L w) {P : PIET T}
    (hP : P ∈ w.pieces) :
    ∃ E : IET T, P.view w.mem = .ok E ∧ H.Good E w.lengths ∧
      (E.zorichInduction O w.lengths).map (fun r => (r.1, some r.2.1, r.2.2)) =
        (P.zorichInduction w.mem O w.lengths).map (fun r => (r.1, (r.2.1.view w.mem).toOption, r.2.2)) ∧
      (E.reduce O w.lengths).map (fun r => (r.1, some r.2)) =
        (P.reduce O w.lengths w.mem).map (fun r => (r.1.bind (fun R => (R.view r.2.2).toOption), (r.2.1.view r.2.2).toOption)) ∧
      ∀ fuel limit, (E.induce L O fuel limit w.lengths).map (fun r => (r.1.result, r.1.connection, r.1.additional, some r.2.1, r.2.2)) =
        (P.induce L O fuel limit w.lengths w.mem).map (fun r => (r.1.result, r.1.connection,
          r.1.additional.bind (fun R => (R.view r.2.2.2).toOption), (r.2.1.view r.2.2.2).toOption, r.2.2.1)) := by
  obtain ⟨w₀, h1, h2⟩ := h.rep hL
  obtain ⟨j, hj, rfl⟩ := List.getElem_of_mem hP
  have hj' : j < w₀.pieces.length := h2.reps.length_eq ▸ hj
  have hrep := h2.reps.get hj hj'
  have hmap : ∀ {α β γ : Type} {R : α → β → Prop} {x : M α} {y : M β} {f : α → γ} {g : β → γ}, RelM R x y → (∀ a b, R a b → f a = g b) →
      x.map f = y.map g := by
    intro α β γ R x y f g hR hfg
    cases x with
    | error e => cases y with
      | error e' => rw [show e = e' from hR]; rfl
      | ok b => exact hR.elim
    | ok a => cases y with
      | error e' => exact hR.elim
      | ok b => exact congrArg Except.ok (hfg a b hR)
  have hopt : ∀ {m' : Mem} {R : Option (IET T)} {R' : Option (PIET T)}, List.Forall₂ (fun Q F => Rep m' Q F) R'.toList R.toList →
      R = R'.bind (fun Q => (Q.view m').toOption) := by
    intro m' R R' hR
    cases R' with
    | none => cases R with
      | none => rfl
      | some R => simp at hR
    | some R' => cases R with
      | none => simp at hR
      | some R =>
        simp only [Option.toList_some, List.forall₂_cons] at hR
        rw [Option.bind_some, hR.1.view]; rfl
  refine ⟨_, hrep.view, ?_, ?_, ?_, ?_⟩
  · rw [← h2.lengths]; exact h1.good _ (List.getElem_mem hj')
  · refine hmap (zorich_sim O hrep w.lengths) ?_
    rintro ⟨a, E', s'⟩ ⟨b, P', t'⟩ ⟨rfl, e2, rfl, _⟩
    simp only at e2 ⊢
    rw [e2.view]; rfl
  · refine hmap (reduce_sim O hrep h2.ok w.lengths) ?_
    rintro ⟨R, E'⟩ ⟨R', P', m'⟩ ⟨e, _⟩
    simp only at e ⊢
    rw [e.rep.view, ← hopt e.reps]; rfl
  · intro fuel limit
    refine hmap (induce_sim L O fuel limit hrep h2.ok w.lengths) ?_
    rintro ⟨st, E', s'⟩ ⟨st', P', t', m'⟩ ⟨⟨e1, e2, e3⟩, rfl⟩
    simp only at e1 e2 e3 ⊢
    rw [e1, e2, e3.rep.view, ← hopt e3.reps]; rfl

/-- The hypothesis can be met: an IET with the lengths 50, 5, 3, 7 is created and `induce(-1)` is called three times; intervals are merged
twice, then the IET is split into two. -/
example (L : PPL) : ∃ w : PWorld (SLengths ℤ) ℤ, PReachable Examples.hInt L w ∧ w.pieces.map PIET.top = [[2], [10]] ∧
    w.pieces.map PIET.bottom = [[8], [11]] ∧ w.mem.node 2 = some ⟨2, some 8⟩ ∧ w.mem.node 10 = some ⟨3, some 11⟩ ∧ w.mem.node 0 = none :=
  ⟨_, .step (w' := _) 10 (.induce 0 (-1)) (.step (w' := _) 10 (.induce 0 (-1)) (.step (w' := _) 10 (.induce 0 (-1))
    (.new .init Examples.int_ok (by simp) rfl) rfl) rfl) rfl, rfl, rfl, rfl, rfl, rfl⟩

end Verif
