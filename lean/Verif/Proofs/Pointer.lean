import Verif.Model.Pointer
import Verif.Proofs.Independence
import Verif.Proofs.Reduce

/-!
# List nodes and labels

The functions on list nodes do what the functions on labels do.
-/

namespace Verif

set_option linter.unusedSectionVars false

theorem ok_bind {α β : Type} (a : α) (f : α → M β) : ((Except.ok a : M α) >>= f) = f a := rfl

theorem pure_ok {α : Type} (a : α) : (pure a : M α) = Except.ok a := rfl

theorem error_bind {α β : Type} (e : Err) (f : α → M β) : ((Except.error e : M α) >>= f) = .error e := rfl

/-- The label of a node. -/
def Mem.lab (m : Mem) (a : Addr) : Label := ((m.node a).map Node.label).getD 0

/-- Each interval of one list is paired with the interval of the same label in the other list. -/
structure Linked (m : Mem) (ts bs : List Addr) : Prop where
  pair : ∀ t ∈ ts, ∃ b ∈ bs, m.node t = some ⟨m.lab t, some b⟩ ∧ m.node b = some ⟨m.lab t, some t⟩
  pair' : ∀ b ∈ bs, ∃ t ∈ ts, m.node b = some ⟨m.lab b, some t⟩ ∧ m.node t = some ⟨m.lab b, some b⟩
  nodup : (ts.map m.lab).Nodup
  nodup' : (bs.map m.lab).Nodup
  disj : ∀ t ∈ ts, t ∉ bs

/-- The node exists. -/
def Mem.Live (m : Mem) (a : Addr) : Prop := ∃ n, m.node a = some n

variable {m : Mem}

theorem Mem.lab_of_node {a : Addr} {n : Node} (h : m.node a = some n) : m.lab a = n.label := by
  simp [Mem.lab, h]

theorem Mem.read_ok {a : Addr} {n : Node} (h : m.node a = some n) : m.read a = .ok n := by
  simp [Mem.read, h]

theorem Mem.label_ok {a : Addr} (h : m.Live a) : m.label a = .ok (m.lab a) := by
  obtain ⟨n, h⟩ := h
  rw [Mem.label, Mem.read_ok h, Mem.lab_of_node h]; rfl

theorem Mem.twin_ok {a b : Addr} {l : Label} (h : m.node a = some ⟨l, some b⟩) : m.twin a = .ok b := by
  rw [Mem.twin, Mem.read_ok h]; rfl

theorem Mem.labels_ok : ∀ {l : List Addr}, (∀ a ∈ l, m.Live a) → m.labels l = .ok (l.map m.lab)
  | [], _ => rfl
  | a :: l, h => by
    have ih := Mem.labels_ok (l := l) (fun x hx => h x (List.mem_cons_of_mem _ hx))
    rw [Mem.labels] at ih ⊢
    rw [List.mapM_cons, Mem.label_ok (h a List.mem_cons_self), ok_bind, ih]; rfl

namespace Linked

variable {ts bs : List Addr}

theorem symm (h : Linked m ts bs) : Linked m bs ts where
  pair := h.pair'
  pair' := h.pair
  nodup := h.nodup'
  nodup' := h.nodup
  disj b hb ht := h.disj b ht hb

theorem live (h : Linked m ts bs) {t : Addr} (ht : t ∈ ts) : m.Live t := by
  obtain ⟨b, _, h1, _⟩ := h.pair t ht
  exact ⟨_, h1⟩

theorem live' (h : Linked m ts bs) {b : Addr} (hb : b ∈ bs) : m.Live b := h.symm.live hb

theorem inj (h : Linked m ts bs) {t u : Addr} (ht : t ∈ ts) (hu : u ∈ ts) (e : m.lab t = m.lab u) : t = u :=
  List.inj_on_of_nodup_map h.nodup ht hu e

theorem perm (h : Linked m ts bs) : (bs.map m.lab).Perm (ts.map m.lab) := by
  rw [List.perm_ext_iff_of_nodup h.nodup' h.nodup]
  intro x
  simp only [List.mem_map]
  constructor
  · rintro ⟨b, hb, rfl⟩
    obtain ⟨t, ht, h1, h2⟩ := h.pair' b hb
    exact ⟨t, ht, Mem.lab_of_node h2⟩
  · rintro ⟨t, ht, rfl⟩
    obtain ⟨b, hb, h1, h2⟩ := h.pair t ht
    exact ⟨b, hb, Mem.lab_of_node h2⟩

theorem nodupTop (h : Linked m ts bs) : ts.Nodup := h.nodup.of_map

theorem nodupBottom (h : Linked m ts bs) : bs.Nodup := h.nodup'.of_map

theorem length_eq (h : Linked m ts bs) : bs.length = ts.length := by
  simpa using h.perm.length_eq

theorem of_perm {ts' bs' : List Addr} (h : Linked m ts bs) (h1 : ts'.Perm ts) (h2 : bs'.Perm bs) : Linked m ts' bs' where
  pair t ht := by
    obtain ⟨b, hb, h3⟩ := h.pair t (h1.mem_iff.1 ht)
    exact ⟨b, h2.mem_iff.2 hb, h3⟩
  pair' t ht := by
    obtain ⟨b, hb, h3⟩ := h.pair' t (h2.mem_iff.1 ht)
    exact ⟨b, h1.mem_iff.2 hb, h3⟩
  nodup := (h1.map m.lab).nodup_iff.2 h.nodup
  nodup' := (h2.map m.lab).nodup_iff.2 h.nodup'
  disj t ht hb := h.disj t (h1.mem_iff.1 ht) (h2.mem_iff.1 hb)

/-- Only the nodes in the lists matter. -/
theorem frame {m' : Mem} (h : Linked m ts bs) (hf : ∀ a ∈ ts ++ bs, m'.node a = m.node a) : Linked m' ts bs := by
  have hl : ∀ a ∈ ts ++ bs, m'.lab a = m.lab a := fun a ha => by rw [Mem.lab, Mem.lab, hf a ha]
  have h1 : ts.map m'.lab = ts.map m.lab := List.map_congr_left (fun a ha => hl a (List.mem_append_left _ ha))
  have h2 : bs.map m'.lab = bs.map m.lab := List.map_congr_left (fun a ha => hl a (List.mem_append_right _ ha))
  refine ⟨?_, ?_, h1 ▸ h.nodup, h2 ▸ h.nodup', h.disj⟩
  · intro t ht
    obtain ⟨b, hb, h3, h4⟩ := h.pair t ht
    refine ⟨b, hb, ?_, ?_⟩
    · rw [hf t (List.mem_append_left _ ht), hl t (List.mem_append_left _ ht), h3]
    · rw [hf b (List.mem_append_right _ hb), hl t (List.mem_append_left _ ht), h4]
  · intro t ht
    obtain ⟨b, hb, h3, h4⟩ := h.pair' t ht
    refine ⟨b, hb, ?_, ?_⟩
    · rw [hf t (List.mem_append_right _ ht), hl t (List.mem_append_right _ ht), h3]
    · rw [hf b (List.mem_append_left _ hb), hl t (List.mem_append_right _ ht), h4]

end Linked

/-! ### Zorich induction -/

variable {σ T : Type}

theorem walkBack_sim (stop : Label) : ∀ (rev suf : List Addr), (∀ a ∈ rev ++ suf, m.Live a) →
    RelM (fun r r' => r'.1.map m.lab = r.1 ∧ r'.2.map m.lab = r.2 ∧ r'.1 ++ r'.2 = rev.reverse ++ suf)
      (IET.walkBack stop (rev.map m.lab) (suf.map m.lab)) (PIET.walkBack m stop rev suf)
  | [], [], _ => rfl
  | _ :: _, [], _ => rfl
  | [], c :: suf, h => by
    simp only [List.map_nil, List.map_cons, IET.walkBack, PIET.walkBack]
    rw [Mem.label_ok (h c (by simp)), ok_bind]
    by_cases e : m.lab c = stop
    · rw [if_pos e, if_pos e]; exact ⟨by simp, rfl, by simp⟩
    · rw [if_neg e, if_neg e]; exact rfl
  | p :: rev, c :: suf, h => by
    simp only [List.map_cons, IET.walkBack, PIET.walkBack]
    rw [Mem.label_ok (h c (by simp)), ok_bind]
    by_cases e : m.lab c = stop
    · rw [if_pos e, if_pos e]; exact ⟨by simp, rfl, by simp⟩
    · rw [if_neg e, if_neg e]
      have := walkBack_sim stop rev (p :: c :: suf) (fun a ha => h a (by simp at ha ⊢; tauto))
      refine this.mono ?_
      rintro r r' ⟨h1, h2, h3⟩
      exact ⟨h1, h2, by rw [h3]; simp⟩

theorem RelM.refl_bind {α β γ : Type} {S : β → γ → Prop} {x : M α} {f : α → M β} {g : α → M γ} (h : ∀ a, x = .ok a → RelM S (f a) (g a)) :
    RelM S (x >>= f) (x >>= g) := by
  cases x with
  | error e => exact rfl
  | ok a => exact h a rfl

theorem zorichLoop_sim (O : LengthsOps σ T) (ctx : Ctx) {a : Addr} (ha : m.Live a) : ∀ (rest rev : List Addr) (s : σ),
    (∀ a ∈ rev ++ rest, m.Live a) →
    RelM (fun r r' => r'.1.1.map m.lab = r.1.1 ∧ r'.1.2.map m.lab = r.1.2 ∧ r'.1.1 ++ r'.1.2 = rev.reverse ++ rest ∧ r'.2 = r.2)
      (IET.zorichLoop O ctx (m.lab a) (rev.map m.lab) (rest.map m.lab) s) (PIET.zorichLoop m O ctx a rev rest s)
  | [], _, _, _ => rfl
  | b :: rest, rev, s, h => by
    simp only [List.map_cons, IET.zorichLoop, PIET.zorichLoop]
    rw [Mem.label_ok (h b (by simp)), ok_bind, Mem.label_ok ha, ok_bind]
    by_cases e : m.lab b = m.lab a
    · rw [if_pos e, if_pos e, ok_bind]
      refine RelM.refl_bind ?_
      rintro ⟨stop, s'⟩ _
      have := walkBack_sim stop rev (b :: rest) h
      refine RelM.bind this ?_
      rintro r r' ⟨h1, h2, h3⟩
      exact ⟨h1, h2, h3, rfl⟩
    · rw [if_neg e, if_neg e, ok_bind]
      refine RelM.refl_bind ?_
      intro s' _
      rw [ok_bind]
      refine RelM.refl_bind ?_
      intro c _
      by_cases e' : 0 ≤ c
      · rw [if_pos e', if_pos e']
        refine RelM.refl_bind ?_
        intro s'' _
        rw [ok_bind]
        refine RelM.refl_bind ?_
        intro s''' _
        exact ⟨by simp, by simp, rfl, rfl⟩
      · rw [if_neg e', if_neg e']
        have := zorichLoop_sim O ctx ha rest (b :: rev) s' (fun a ha => h a (by simp at ha ⊢; tauto))
        refine this.mono ?_
        rintro r r' ⟨h1, h2, h3, h4⟩
        exact ⟨h1, h2, by rw [h3]; simp, h4⟩

theorem insertAt_sim (q : Addr) (moved : List Addr) : ∀ (rest : List Addr), (∀ c ∈ rest, m.lab c = m.lab q → c = q) →
    RelM (fun r r' => r'.map m.lab = r ∧ r'.Perm (moved ++ rest))
      (IET.spliceBefore (m.lab q) (moved.map m.lab) (rest.map m.lab)) (PIET.insertAt q moved rest)
  | [], _ => rfl
  | c :: rest, h => by
    simp only [List.map_cons, IET.spliceBefore, PIET.insertAt]
    by_cases e : c = q
    · rw [if_pos (by rw [e]), if_pos e]
      exact ⟨by simp, List.Perm.refl _⟩
    · rw [if_neg (fun e' => e (h c (by simp) e')), if_neg e]
      refine RelM.bind (insertAt_sim q moved rest (fun x hx => h x (List.mem_cons_of_mem _ hx))) ?_
      rintro r r' ⟨h1, h2⟩
      refine ⟨by simp [h1], ?_⟩
      exact (h2.cons c).trans (List.perm_middle).symm

/-- The nodes represent the IET. -/
structure Rep (m : Mem) (P : PIET T) (E : IET T) : Prop where
  linked : Linked m P.top P.bottom
  top : P.top.map m.lab = E.top
  bottom : P.bottom.map m.lab = E.bottom
  safCache : P.safCache = E.safCache
  tracker : P.tracker = E.tracker
  swapped : P.swapped = E.swapped

namespace Rep

variable {P : PIET T} {E : IET T}

theorem view (h : Rep m P E) : P.view m = .ok E := by
  rw [PIET.view, Mem.labels_ok (fun a ha => h.linked.live ha), ok_bind, Mem.labels_ok (fun a ha => h.linked.live' ha), ok_bind, h.top,
    h.bottom, h.safCache, h.tracker, h.swapped]
  rfl

theorem swap (h : Rep m P E) : Rep m P.swap E.swap where
  linked := h.linked.symm
  top := h.bottom
  bottom := h.top
  safCache := h.safCache
  tracker := h.tracker
  swapped := by simp only [PIET.swap, IET.swap, h.swapped]

theorem aux {E' : IET T} (h : Rep m P E) (h1 : E'.top = E.top) (h2 : E'.bottom = E.bottom) (h3 : E'.swapped = E.swapped) :
    Rep m (P.aux E') E' where
  linked := h.linked
  top := by rw [h1]; exact h.top
  bottom := by rw [h2]; exact h.bottom
  safCache := rfl
  tracker := rfl
  swapped := by rw [h3]; exact h.swapped

theorem frame {m' : Mem} (h : Rep m P E) (hf : ∀ a ∈ P.top ++ P.bottom, m'.node a = m.node a) : Rep m' P E where
  linked := h.linked.frame hf
  top := by
    rw [← h.top]
    exact List.map_congr_left (fun a ha => by rw [Mem.lab, Mem.lab, hf a (List.mem_append_left _ ha)])
  bottom := by
    rw [← h.bottom]
    exact List.map_congr_left (fun a ha => by rw [Mem.lab, Mem.lab, hf a (List.mem_append_right _ ha)])
  safCache := h.safCache
  tracker := h.tracker
  swapped := h.swapped

end Rep

/-- The results of two functions which do not change the memory. -/
def SameNodes (m : Mem) (P : PIET T) {α : Type} (x : α × IET T × σ) (y : α × PIET T × σ) : Prop :=
  x.1 = y.1 ∧ Rep m y.2.1 x.2.1 ∧ x.2.2 = y.2.2 ∧ (y.2.1.top ++ y.2.1.bottom).Perm (P.top ++ P.bottom) ∧ y.2.1.top.length = P.top.length

theorem zorich_sim (O : LengthsOps σ T) {P : PIET T} {E : IET T} (h : Rep m P E) (s : σ) :
    RelM (SameNodes m P) (E.zorichInduction O s) (P.zorichInduction m O s) := by
  unfold IET.zorichInduction PIET.zorichInduction
  rw [← h.top, ← h.bottom]
  rcases hP : P.top with _ | ⟨a, as⟩
  · exact rfl
  rcases hB : P.bottom with _ | ⟨b, bs⟩
  · exact rfl
  have ha : a ∈ P.top := by rw [hP]; exact List.mem_cons_self
  have hb : b ∈ P.bottom := by rw [hB]; exact List.mem_cons_self
  simp only [List.map_cons]
  rw [Mem.label_ok (h.linked.live ha), ok_bind, Mem.label_ok (h.linked.live' hb), ok_bind]
  by_cases e : m.lab a = m.lab b
  · rw [if_pos e, if_pos e]
    exact ⟨rfl, h, rfl, List.Perm.refl _, rfl⟩
  · rw [if_neg e, if_neg e]
    have hl : m.labels (a :: as) = .ok E.top := by
      rw [← h.top, ← hP]; exact Mem.labels_ok (fun x hx => h.linked.live hx)
    rw [hl, ok_bind]
    have hc : E.ctx = ⟨E.top, P.swapped⟩ := by rw [h.swapped]; rfl
    rw [hc]
    have hz := zorichLoop_sim O ⟨E.top, P.swapped⟩ (h.linked.live ha) (b :: bs) [] s
      (fun x hx => h.linked.live' (by rw [hB]; simpa using hx))
    simp only [List.map_nil, List.map_cons] at hz
    refine RelM.bind hz ?_
    rintro ⟨⟨moved, rest⟩, s1⟩ ⟨⟨moved', rest'⟩, s1'⟩ ⟨h1, h2, h3, h4⟩
    dsimp only at h1 h2 h3 h4
    subst h4
    obtain ⟨q, hq, hq1, hq2⟩ := h.linked.pair a ha
    dsimp only
    rw [Mem.twin_ok hq1, ok_bind]
    have hql : m.lab q = m.lab a := Mem.lab_of_node hq2
    have hsub : ∀ c ∈ rest', c ∈ P.bottom := by
      intro c hc
      have : c ∈ moved' ++ rest' := List.mem_append_right _ hc
      rw [h3] at this
      rw [hB]; simpa using this
    have hi := insertAt_sim (m := m) q moved' rest' (fun c hc e => h.linked.symm.inj (hsub c hc) hq e)
    rw [hql, h1, h2] at hi
    refine RelM.bind hi ?_
    rintro r r' ⟨h5, h6⟩
    have hperm : r'.Perm P.bottom := by
      rw [hB]; exact h6.trans (by rw [h3]; exact List.Perm.refl _)
    have hlk : Linked m P.top r' := h.linked.of_perm (List.Perm.refl _) hperm
    have hfin : ∀ v : Bool, SameNodes m P (v, { E with bottom := r }, s1') (v, { P with bottom := r' }, s1') := by
      intro v
      refine ⟨rfl, ⟨hlk, h.top, h5, h.safCache, h.tracker, h.swapped⟩, rfl, ?_, rfl⟩
      exact hperm.append_left _
    subst h5
    cases r' with
    | nil => exact rfl
    | cons b' r' =>
      simp only [List.map_cons]
      rw [ok_bind, Mem.label_ok (h.linked.live' (hperm.mem_iff.1 List.mem_cons_self)), ok_bind]
      refine RelM.refl_bind ?_
      intro c _
      have := hfin (decide (c = 0))
      simp only [List.map_cons] at this
      have e1 : m.lab a :: List.map m.lab as = E.top := by rw [← h.top, hP]; rfl
      rw [e1, ← hP]
      exact this

/-! ### Reduction -/

theorem Mem.ext' {m m' : Mem} (h1 : m.next = m'.next) (h2 : ∀ a, m.node a = m'.node a) : m = m' := by
  cases m; cases m'; simp only at h1; subst h1
  congr 1
  exact funext h2

theorem xor_one_ne (x : ℕ) : x ^^^ 1 ≠ x := by
  intro h
  have := congrArg (fun y => x ^^^ y) h
  simp only [← Nat.xor_assoc, Nat.xor_self, Nat.zero_xor] at this
  exact absurd this (by decide)

theorem xor_one_xor_one (x : ℕ) : x ^^^ 1 ^^^ 1 = x := by
  rw [Nat.xor_assoc, Nat.xor_self, Nat.xor_zero]

/-- While `reduce` runs: the labels in `mt` and `mb` are flipped, these are the nodes whose twin has not been seen yet. -/
structure FlipInv (m₀ m : Mem) (top bottom ts bs mt mb : List Addr) (marked : List Label) : Prop where
  next : m.next = m₀.next
  node : ∀ a, m.node a = if a ∈ mt ∨ a ∈ mb then (m₀.node a).map (fun n => ⟨n.label ^^^ 1, n.twin⟩) else m₀.node a
  memTop : ∀ a ∈ mt, a ∈ top ∧ a ∉ ts
  memBottom : ∀ a ∈ mb, a ∈ bottom ∧ a ∉ bs
  nodupTop : mt.Nodup
  nodupBottom : mb.Nodup
  mem_marked : ∀ x, x ∈ marked ↔ ∃ a, (a ∈ mt ∨ a ∈ mb) ∧ m₀.lab a = x
  nodup : marked.Nodup

theorem FlipInv.symm {m₀ m : Mem} {top bottom ts bs mt mb : List Addr} {marked : List Label}
    (h : FlipInv m₀ m top bottom ts bs mt mb marked) : FlipInv m₀ m bottom top bs ts mb mt marked where
  next := h.next
  node a := by rw [h.node a]; simp only [or_comm]
  memTop := h.memBottom
  memBottom := h.memTop
  nodupTop := h.nodupBottom
  nodupBottom := h.nodupTop
  mem_marked x := by rw [h.mem_marked x]; simp only [or_comm]
  nodup := h.nodup

theorem FlipInv.flip {m₀ m : Mem} {top bottom ts bs mt mb : List Addr} {marked : List Label} (hl : Linked m₀ top bottom) {t : Addr}
    (h : FlipInv m₀ m top bottom (t :: ts) bs mt mb marked) (ht : t ∈ top) (hts : t ∉ ts) :
    if m₀.lab t ∈ marked then
      ∃ m' b, b ∈ mb ∧ m.flip t = .ok (true, m') ∧ FlipInv m₀ m' top bottom ts bs mt (mb.erase b) (marked.erase (m₀.lab t))
    else ∃ m', m.flip t = .ok (false, m') ∧ FlipInv m₀ m' top bottom ts bs (t :: mt) mb (m₀.lab t :: marked) := by
  obtain ⟨b, hb, e1, e2⟩ := hl.pair t ht
  have htmt : t ∉ mt := fun hm => (h.memTop t hm).2 List.mem_cons_self
  have htmb : t ∉ mb := fun hm => hl.disj t ht (h.memBottom t hm).1
  have hbmt : b ∉ mt := fun hm => hl.disj b (h.memTop b hm).1 hb
  have hbt : b ≠ t := fun e => hl.disj t ht (e ▸ hb)
  have hlab : m₀.lab b = m₀.lab t := Mem.lab_of_node e2
  have nt : m.node t = some ⟨m₀.lab t, some b⟩ := by
    rw [h.node t, if_neg (by tauto), e1]
  have ht1 : m.label t = .ok (m₀.lab t) := by rw [Mem.label, Mem.read_ok nt]; rfl
  have ht2 : m.twin t = .ok b := Mem.twin_ok nt
  have htail : ∀ a, a ∉ t :: ts → a ∉ ts := fun a ha hm => ha (List.mem_cons_of_mem _ hm)
  by_cases hm : m₀.lab t ∈ marked
  · rw [if_pos hm]
    obtain ⟨u, hu, eu⟩ := (h.mem_marked _).1 hm
    have hub : u = b := by
      rcases hu with hu | hu
      · have := hl.inj (h.memTop u hu).1 ht eu
        rw [this] at hu; exact absurd hu htmt
      · exact hl.symm.inj (h.memBottom u hu).1 hb (eu.trans hlab.symm)
    have hbmb : b ∈ mb := by
      rcases hu with hu | hu
      · rw [hub] at hu; exact absurd hu hbmt
      · rwa [hub] at hu
    have nb : m.node b = some ⟨m₀.lab t ^^^ 1, some t⟩ := by
      rw [h.node b, if_pos (.inr hbmb), e2]; rfl
    have hb1 : m.label b = .ok (m₀.lab t ^^^ 1) := by rw [Mem.label, Mem.read_ok nb]; rfl
    refine ⟨m.put b (some ⟨m₀.lab t, some t⟩), b, hbmb, ?_, ?_⟩
    · rw [Mem.flip, ht1, ok_bind, ht2, ok_bind, hb1, ok_bind, if_pos (xor_one_ne _).symm, Mem.setLabel, Mem.read_ok nb, ok_bind,
        xor_one_xor_one]
      rfl
    · refine ⟨h.next, ?_, fun a ha => ⟨(h.memTop a ha).1, htail a (h.memTop a ha).2⟩, fun a ha => h.memBottom a (List.mem_of_mem_erase ha),
        h.nodupTop, h.nodupBottom.erase _, ?_, h.nodup.erase _⟩
      · intro a
        simp only [Mem.put]
        by_cases ea : a = b
        · subst ea
          rw [if_pos rfl, if_neg, e2]
          rintro (h1 | h1)
          · exact hbmt h1
          · exact (h.nodupBottom.mem_erase_iff.1 h1).1 rfl
        · rw [if_neg ea, h.node a]
          have : (a ∈ mt ∨ a ∈ mb.erase b) ↔ (a ∈ mt ∨ a ∈ mb) := by
            rw [h.nodupBottom.mem_erase_iff]; tauto
          simp only [this]
      · intro x
        rw [h.nodup.mem_erase_iff, h.mem_marked x]
        constructor
        · rintro ⟨h1, a, ha, rfl⟩
          refine ⟨a, ?_, rfl⟩
          rcases ha with ha | ha
          · exact .inl ha
          · right
            rw [h.nodupBottom.mem_erase_iff]
            exact ⟨fun e => h1 (by rw [e, hlab]), ha⟩
        · rintro ⟨a, ha, rfl⟩
          rcases ha with ha | ha
          · refine ⟨fun e => ?_, a, .inl ha, rfl⟩
            have := hl.inj (h.memTop a ha).1 ht e
            rw [this] at ha; exact htmt ha
          · rw [h.nodupBottom.mem_erase_iff] at ha
            refine ⟨fun e => ha.1 ?_, a, .inr ha.2, rfl⟩
            exact hl.symm.inj (h.memBottom a ha.2).1 hb (e.trans hlab.symm)
  · rw [if_neg hm]
    have hbmb : b ∉ mb := fun hbm => hm ((h.mem_marked _).2 ⟨b, .inr hbm, hlab⟩)
    have nb : m.node b = some ⟨m₀.lab t, some t⟩ := by
      rw [h.node b, if_neg (by tauto), e2]
    have hb1 : m.label b = .ok (m₀.lab t) := by rw [Mem.label, Mem.read_ok nb]; rfl
    refine ⟨m.put t (some ⟨m₀.lab t ^^^ 1, some b⟩), ?_, ?_⟩
    · rw [Mem.flip, ht1, ok_bind, ht2, ok_bind, hb1, ok_bind, if_neg (by simp), Mem.setLabel, Mem.read_ok nt]
      rfl
    · refine ⟨h.next, ?_, ?_, h.memBottom, List.nodup_cons.2 ⟨htmt, h.nodupTop⟩, h.nodupBottom, ?_, List.nodup_cons.2 ⟨hm, h.nodup⟩⟩
      · intro a
        simp only [Mem.put]
        by_cases ea : a = t
        · subst ea
          rw [if_pos rfl, if_pos (.inl List.mem_cons_self), e1]; rfl
        · rw [if_neg ea, h.node a]
          have : (a ∈ t :: mt ∨ a ∈ mb) ↔ (a ∈ mt ∨ a ∈ mb) := by
            rw [List.mem_cons]; tauto
          simp only [this]
      · intro a ha
        rcases List.mem_cons.1 ha with rfl | ha
        · exact ⟨ht, hts⟩
        · exact ⟨(h.memTop a ha).1, htail a (h.memTop a ha).2⟩
      · intro x
        rw [List.mem_cons, h.mem_marked x]
        constructor
        · rintro (rfl | ⟨a, ha, rfl⟩)
          · exact ⟨t, .inl List.mem_cons_self, rfl⟩
          · exact ⟨a, ha.imp (List.mem_cons_of_mem _) id, rfl⟩
        · rintro ⟨a, ha, rfl⟩
          rcases ha with ha | ha
          · rcases List.mem_cons.1 ha with rfl | ha
            · exact .inl rfl
            · exact .inr ⟨a, .inl ha, rfl⟩
          · exact .inr ⟨a, .inr ha, rfl⟩

/-- One side of the body of the loop in `reduce`. -/
theorem FlipInv.flip_length {m₀ m : Mem} {top bottom ts bs mt mb : List Addr} {marked : List Label} (hl : Linked m₀ top bottom) {t : Addr}
    (h : FlipInv m₀ m top bottom (t :: ts) bs mt mb marked) (ht : t ∈ top) (hts : t ∉ ts) :
    ∃ m' mt' mb', m.flip t = .ok (decide (m₀.lab t ∈ marked), m') ∧
      FlipInv m₀ m' top bottom ts bs mt' mb' (if m₀.lab t ∈ marked then marked.erase (m₀.lab t) else m₀.lab t :: marked) ∧
      (mt'.length : ℤ) = (if m₀.lab t ∈ marked then (mt.length : ℤ) else mt.length + 1) ∧
      (mb'.length : ℤ) = (if m₀.lab t ∈ marked then (mb.length : ℤ) - 1 else mb.length) := by
  have := h.flip hl ht hts
  by_cases hm : m₀.lab t ∈ marked
  · rw [if_pos hm] at this
    obtain ⟨m', b, hb, e, hf⟩ := this
    refine ⟨m', mt, mb.erase b, by simp [e, hm], by simpa [hm] using hf, by simp [hm], ?_⟩
    have hp : 0 < mb.length := List.length_pos_of_mem hb
    rw [if_pos hm, List.length_erase_of_mem hb]; omega
  · rw [if_neg hm] at this
    obtain ⟨m', e, hf⟩ := this
    exact ⟨m', t :: mt, mb, by simp [e, hm], by simpa [hm] using hf, by simp [hm], by simp [hm]⟩

theorem reduceLoop_sim {m₀ : Mem} {top bottom : List Addr} (hl : Linked m₀ top bottom) : ∀ (ts bs mt mb : List Addr) (marked : List Label)
    (n : ℕ) (m : Mem), FlipInv m₀ m top bottom ts bs mt mb marked → (∀ a ∈ ts, a ∈ top) → (∀ a ∈ bs, a ∈ bottom) → ts.Nodup → bs.Nodup →
    RelM (fun k r => r = (k, m₀)) (IET.reduceLoop (ts.map m₀.lab) (bs.map m₀.lab) marked mt.length mb.length n)
      (PIET.reduceLoop ts bs mt.length mb.length n m)
  | [], _, _, _, _, _, _, _, _, _, _, _ => by
    simp only [List.map_nil, IET.reduceLoop, PIET.reduceLoop]; exact rfl
  | _ :: _, [], _, _, _, _, _, _, _, _, _, _ => by
    simp only [List.map_nil, List.map_cons, IET.reduceLoop, PIET.reduceLoop]; exact rfl
  | t :: ts, b :: bs, mt, mb, marked, n, m, h, h1, h2, h3, h4 => by
    simp only [List.map_cons, IET.reduceLoop, PIET.reduceLoop]
    obtain ⟨m1, mt1, mb1, e1, hf1, l1, l2⟩ := h.flip_length hl (h1 t List.mem_cons_self) (List.nodup_cons.1 h3).1
    obtain ⟨m2, mb2, mt2, e2, hf2, l3, l4⟩ := hf1.symm.flip_length hl.symm (h2 b List.mem_cons_self) (List.nodup_cons.1 h4).1
    rw [e1, ok_bind]
    dsimp only
    rw [e2, ok_bind]
    dsimp only
    have key := reduceLoop_sim hl ts bs mt2 mb2 _ (n + 1) m2 hf2.symm (fun a ha => h1 a (List.mem_cons_of_mem _ ha))
      (fun a ha => h2 a (List.mem_cons_of_mem _ ha)) (List.nodup_cons.1 h3).2 (List.nodup_cons.1 h4).2
    have hend : (mt2.length : ℤ) = 0 → (mb2.length : ℤ) = 0 → m2 = m₀ := by
      intro z1 z2
      have z1 : mt2 = [] := List.length_eq_zero_iff.1 (by exact_mod_cast z1)
      have z2 : mb2 = [] := List.length_eq_zero_iff.1 (by exact_mod_cast z2)
      subst z1 z2
      refine Mem.ext' hf2.next (fun a => ?_)
      rw [hf2.node a, if_neg (by simp)]
    rw [l4, l3, l2, l1] at key
    rw [l4, l3, l2, l1] at hend
    by_cases c1 : m₀.lab t ∈ marked
    · simp only [c1, if_true, decide_true] at key hend ⊢
      by_cases c2 : m₀.lab b ∈ marked.erase (m₀.lab t)
      · simp only [c2, if_true, decide_true] at key hend ⊢
        split
        · rename_i hz; rw [hend hz.1 hz.2]; exact rfl
        · exact key
      · simp only [c2, if_false, decide_false, Bool.false_eq_true] at key hend ⊢
        split
        · rename_i hz; rw [hend hz.1 hz.2]; exact rfl
        · exact key
    · simp only [c1, if_false, decide_false, Bool.false_eq_true] at key hend ⊢
      by_cases c2 : m₀.lab b ∈ m₀.lab t :: marked
      · simp only [c2, if_true, decide_true] at key hend ⊢
        split
        · rename_i hz; rw [hend hz.1 hz.2]; exact rfl
        · exact key
      · simp only [c2, if_false, decide_false, Bool.false_eq_true] at key hend ⊢
        split
        · rename_i hz; rw [hend hz.1 hz.2]; exact rfl
        · exact key

theorem reduceLoop_sim₀ {top bottom : List Addr} (hl : Linked m top bottom) :
    RelM (fun k r => r = (k, m)) (IET.reduceLoop (top.map m.lab) (bottom.map m.lab) [] 0 0 0) (PIET.reduceLoop top bottom 0 0 0 m) := by
  have := reduceLoop_sim hl top bottom [] [] [] 0 m ⟨rfl, fun a => by simp, by simp, by simp, by simp, by simp, by simp, by simp⟩
    (fun a h => h) (fun a h => h) hl.nodupTop hl.nodupBottom
  simpa using this

end Verif
