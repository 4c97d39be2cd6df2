import Verif.Proofs.Pointer

/-!
# Creating, erasing, and merging nodes
-/

namespace Verif

set_option linter.unusedSectionVars false

variable {σ T : Type}

theorem RelM.bind' {α β γ δ : Type} {R : α → β → Prop} {S : γ → δ → Prop} {x : M α} {y : M β} {f : α → M γ} {g : β → M δ}
    (h : RelM R x y) (hf : ∀ a b, x = .ok a → y = .ok b → R a b → RelM S (f a) (g b)) : RelM S (x >>= f) (y >>= g) := by
  cases x with
  | error e => cases y with
    | error e' => exact h
    | ok b => exact h.elim
  | ok a => cases y with
    | error e' => exact h.elim
    | ok b => exact hf a b rfl rfl h

/-- Nothing has been allocated at `next` and later. -/
def Mem.Ok (m : Mem) : Prop := ∀ a, m.next ≤ a → m.node a = none

/-- What a function does to the memory when it is called on an object with the nodes `old` and returns objects with the nodes `new`. -/
structure Frame (m m' : Mem) (old new : List Addr) : Prop where
  next : m.next ≤ m'.next
  same : ∀ a, a < m.next → a ∉ old → m'.node a = m.node a
  sub : ∀ a ∈ new, a ∈ old ∨ (m.next ≤ a ∧ a < m'.next)
  ok : m'.Ok

theorem Frame.refl {m : Mem} (h : m.Ok) {old new : List Addr} (hs : ∀ a ∈ new, a ∈ old) : Frame m m old new :=
  ⟨le_refl _, fun _ _ _ => rfl, fun a ha => .inl (hs a ha), h⟩

theorem Frame.perm {m m' : Mem} {old new old' new' : List Addr} (h : Frame m m' old new) (h1 : ∀ a, a ∈ old ↔ a ∈ old') (h2 : ∀ a ∈ new', a ∈ new) :
    Frame m m' old' new' :=
  ⟨h.next, fun a ha hn => h.same a ha (fun hm => hn ((h1 a).1 hm)), fun a ha => (h.sub a (h2 a ha)).imp (h1 a).1 id, h.ok⟩

theorem Frame.trans {m m' m'' : Mem} {old new new' : List Addr} (h : Frame m m' old new) (h' : Frame m' m'' new new') :
    Frame m m'' old new' where
  next := h.next.trans h'.next
  same a ha hn := by
    rw [h'.same a (lt_of_lt_of_le ha h.next), h.same a ha hn]
    intro hm
    rcases h.sub a hm with h1 | h1
    · exact hn h1
    · omega
  sub a ha := by
    rcases h'.sub a ha with h1 | h1
    · rcases h.sub a h1 with h2 | h2
      · exact .inl h2
      · exact .inr ⟨h2.1, lt_of_lt_of_le h2.2 h'.next⟩
    · exact .inr ⟨h.next.trans h1.1, h1.2⟩
  ok := h'.ok

/-! ### New lists -/

theorem newList_spec : ∀ (ls : List Label) (m : Mem), (m.newList ls).1 = List.range' m.next ls.length ∧
    (m.newList ls).2.next = m.next + ls.length ∧
    ∀ a, (m.newList ls).2.node a = if m.next ≤ a ∧ a < m.next + ls.length then some ⟨ls.getD (a - m.next) 0, none⟩ else m.node a
  | [], m => ⟨rfl, rfl, fun a => by
      rw [if_neg (by simp)]; rfl⟩
  | l :: ls, m => by
    obtain ⟨h1, h2, h3⟩ := newList_spec ls (m.alloc ⟨l, none⟩).2
    have e : (m.alloc ⟨l, none⟩).2.next = m.next + 1 := rfl
    refine ⟨?_, ?_, ?_⟩
    · simp only [Mem.newList, List.length_cons, List.range'_succ]
      rw [h1, e]; rfl
    · simp only [Mem.newList, List.length_cons]
      rw [h2, e]; omega
    · intro a
      simp only [Mem.newList, List.length_cons]
      rw [h3, e]
      by_cases c : m.next = a
      · subst c
        rw [if_neg (by omega), if_pos (by omega)]
        simp [Mem.alloc]
      · by_cases c2 : m.next + 1 ≤ a ∧ a < m.next + 1 + ls.length
        · rw [if_pos c2, if_pos (by omega)]
          have : a - m.next = (a - (m.next + 1)) + 1 := by omega
          rw [this, List.getD_cons_succ]
        · rw [if_neg c2, if_neg (by omega)]
          simp only [Mem.alloc]
          rw [if_neg (Ne.symm c)]

theorem map_range'_getD (ls : List Label) (n : ℕ) : (List.range' n ls.length).map (fun a => ls.getD (a - n) 0) = ls := by
  apply List.ext_getElem
  · simp
  · intro i h1 h2
    simp [List.getD_eq_getElem?_getD, h2]

/-! ### Linking -/

theorem Mem.setTwin_ok {m : Mem} {a b : Addr} (h : m.Live a) : m.setTwin a b = .ok (m.put a (some ⟨m.lab a, some b⟩)) := by
  obtain ⟨n, h⟩ := h
  rw [Mem.setTwin, Mem.read_ok h, Mem.lab_of_node h]; rfl

theorem Mem.lab_put {m : Mem} {a : Addr} {t : Option Addr} (x : Addr) : (m.put a (some ⟨m.lab a, t⟩)).lab x = m.lab x := by
  by_cases h : x = a
  · subst h; simp [Mem.lab, Mem.put]
  · simp [Mem.lab, Mem.put, h]

theorem Mem.live_put {m : Mem} {a x : Addr} {n : Node} (h : m.Live x) : (m.put a (some n)).Live x := by
  by_cases e : x = a
  · exact ⟨n, by simp [Mem.put, e]⟩
  · obtain ⟨n', h⟩ := h
    exact ⟨n', by simp [Mem.put, e, h]⟩

/-- The last node in the list with the given label. -/
def lastWith (m : Mem) (l : Label) (bs : List Addr) : Option Addr := bs.reverse.find? (fun b => decide (m.lab b = l))

theorem lastWith_cons (m : Mem) (l : Label) (b : Addr) (bs : List Addr) :
    lastWith m l (b :: bs) = (lastWith m l bs).or (if m.lab b = l then some b else none) := by
  unfold lastWith
  rw [List.reverse_cons, List.find?_append]
  congr 1
  by_cases h : m.lab b = l
  · simp [h]
  · simp [h]

theorem linkRow_spec (t : Addr) : ∀ (bs : List Addr) (m : Mem), t ∉ bs → m.Live t → (∀ b ∈ bs, m.Live b) →
    ∃ m', Mem.linkRow t bs m = .ok m' ∧ m'.next = m.next ∧ (∀ x, m'.lab x = m.lab x) ∧ ∀ a, m'.node a =
      if a = t then (m.node t).map (fun n => ⟨n.label, (lastWith m (m.lab t) bs).or n.twin⟩)
      else if a ∈ bs ∧ m.lab a = m.lab t then (m.node a).map (fun n => ⟨n.label, some t⟩) else m.node a
  | [], m, _, _, _ => by
    refine ⟨m, rfl, rfl, fun _ => rfl, fun a => ?_⟩
    by_cases e : a = t
    · subst e
      rw [if_pos rfl]
      cases h : m.node a with
      | none => rfl
      | some n => simp [lastWith]
    · rw [if_neg e, if_neg (by simp)]
  | b :: bs, m, h1, h2, h3 => by
    have htb : t ≠ b := fun e => h1 (e ▸ List.mem_cons_self)
    have htbs : t ∉ bs := fun e => h1 (List.mem_cons_of_mem _ e)
    have hb := h3 b List.mem_cons_self
    simp only [Mem.linkRow]
    rw [Mem.label_ok h2, ok_bind, Mem.label_ok hb, ok_bind]
    by_cases e : m.lab t = m.lab b
    · rw [if_pos e, Mem.setTwin_ok h2, ok_bind, Mem.setTwin_ok (Mem.live_put hb), ok_bind]
      rw [Mem.lab_put]
      set m1 := m.put t (some ⟨m.lab t, some b⟩) with hm1
      have hm2lab : ∀ x, (m1.put b (some ⟨m.lab b, some t⟩)).lab x = m.lab x := by
        intro x
        have : m.lab b = m1.lab b := (Mem.lab_put b).symm
        rw [this, Mem.lab_put, Mem.lab_put]
      set m2 := m1.put b (some ⟨m.lab b, some t⟩) with hm2
      obtain ⟨m', g1, g2, g3, g4⟩ := linkRow_spec t bs m2 htbs (Mem.live_put (Mem.live_put h2))
        (fun x hx => Mem.live_put (Mem.live_put (h3 x (List.mem_cons_of_mem _ hx))))
      refine ⟨m', g1, g2, fun x => (g3 x).trans (hm2lab x), fun a => ?_⟩
      rw [g4 a]
      have hlw : ∀ l, lastWith m2 l bs = lastWith m l bs := by
        intro l; unfold lastWith; simp only [hm2lab]
      have hnt : m2.node t = some ⟨m.lab t, some b⟩ := by
        simp [hm2, hm1, Mem.put, htb]
      obtain ⟨n0, hn0⟩ := h2
      by_cases ea : a = t
      · subst ea
        rw [if_pos rfl, if_pos rfl, hnt, hn0, hm2lab, hlw, lastWith_cons, if_pos e.symm]
        simp only [Option.map_some]
        rw [Mem.lab_of_node hn0]
        congr 2
        cases lastWith m n0.label bs <;> rfl
      · rw [if_neg ea, if_neg ea, hm2lab, hm2lab]
        by_cases eb : a = b
        · subst eb
          obtain ⟨n1, hn1⟩ := hb
          have hnb : m2.node a = some ⟨m.lab a, some t⟩ := by simp [hm2, Mem.put]
          rw [hnb, hn1, Mem.lab_of_node hn1]
          simp only [Option.map_some, List.mem_cons, true_or, true_and]
          rw [← Mem.lab_of_node hn1, if_pos e.symm]
          split <;> rfl
        · have hna : m2.node a = m.node a := by simp [hm2, hm1, Mem.put, ea, eb]
          rw [hna]
          have : (a ∈ b :: bs ∧ m.lab a = m.lab t) ↔ (a ∈ bs ∧ m.lab a = m.lab t) := by
            rw [List.mem_cons]; tauto
          simp only [this]
    · rw [if_neg e]
      obtain ⟨m', g1, g2, g3, g4⟩ := linkRow_spec t bs m htbs h2 (fun x hx => h3 x (List.mem_cons_of_mem _ hx))
      refine ⟨m', g1, g2, g3, fun a => ?_⟩
      rw [g4 a, lastWith_cons, if_neg (Ne.symm e), Option.or_none]
      have : (a ∈ b :: bs ∧ m.lab a = m.lab t) ↔ (a ∈ bs ∧ m.lab a = m.lab t) := by
        rw [List.mem_cons]
        constructor
        · rintro ⟨rfl | h, h'⟩
          · exact absurd h'.symm e
          · exact ⟨h, h'⟩
        · rintro ⟨h, h'⟩; exact ⟨.inr h, h'⟩
      simp only [this]

theorem link_spec : ∀ (ts bs : List Addr) (m : Mem), ts.Nodup → (∀ t ∈ ts, t ∉ bs) → (∀ t ∈ ts, m.Live t) → (∀ b ∈ bs, m.Live b) →
    ∃ m', Mem.link ts bs m = .ok m' ∧ m'.next = m.next ∧ (∀ x, m'.lab x = m.lab x) ∧ ∀ a, m'.node a =
      if a ∈ ts then (m.node a).map (fun n => ⟨n.label, (lastWith m (m.lab a) bs).or n.twin⟩)
      else if a ∈ bs then (m.node a).map (fun n => ⟨n.label, (lastWith m (m.lab a) ts).or n.twin⟩) else m.node a
  | [], bs, m, _, _, _, _ => by
    refine ⟨m, rfl, rfl, fun _ => rfl, fun a => ?_⟩
    rw [if_neg (by simp)]
    split
    · cases m.node a with
      | none => rfl
      | some n => simp [lastWith]
    · rfl
  | t :: ts, bs, m, h1, h2, h3, h4 => by
    obtain ⟨ht, h1'⟩ := List.nodup_cons.1 h1
    have htbs := h2 t List.mem_cons_self
    obtain ⟨m1, g1, g2, g3, g4⟩ := linkRow_spec t bs m htbs (h3 t List.mem_cons_self) h4
    have hlive : ∀ x, m.Live x → m1.Live x := by
      rintro x ⟨n, hn⟩
      unfold Mem.Live
      rw [g4 x]
      by_cases e : x = t
      · subst e; rw [if_pos rfl, hn]; exact ⟨_, rfl⟩
      · rw [if_neg e]
        by_cases e' : x ∈ bs ∧ m.lab x = m.lab t
        · rw [if_pos e', hn]; exact ⟨_, rfl⟩
        · rw [if_neg e', hn]; exact ⟨_, rfl⟩
    obtain ⟨m', f1, f2, f3, f4⟩ := link_spec ts bs m1 h1' (fun x hx => h2 x (List.mem_cons_of_mem _ hx))
      (fun x hx => hlive x (h3 x (List.mem_cons_of_mem _ hx))) (fun x hx => hlive x (h4 x hx))
    have hlw : ∀ l (xs : List Addr), lastWith m1 l xs = lastWith m l xs := by
      intro l xs; unfold lastWith; simp only [g3]
    refine ⟨m', ?_, f2.trans g2, fun x => (f3 x).trans (g3 x), fun a => ?_⟩
    · simp only [Mem.link]; rw [g1, ok_bind, f1]
    · rw [f4 a]
      simp only [hlw, g3]
      by_cases ea : a = t
      · subst ea
        rw [if_neg ht, if_neg htbs, if_pos (List.mem_cons_self (a := a)), g4 a, if_pos rfl]
      · by_cases ets : a ∈ ts
        · rw [if_pos ets, if_pos (List.mem_cons_of_mem _ ets), g4 a, if_neg ea, if_neg]
          intro hc; exact h2 a (List.mem_cons_of_mem _ ets) hc.1
        · rw [if_neg ets]
          by_cases ebs : a ∈ bs
          · simp only [ebs, if_true]
            rw [if_neg (by simp [ea, ets]), g4 a, if_neg ea, lastWith_cons]
            obtain ⟨n, hn⟩ := h4 a ebs
            by_cases el : m.lab a = m.lab t
            · rw [if_pos ⟨ebs, el⟩, if_pos el.symm, hn]
              simp only [Option.map_some]
              congr 2
              cases lastWith m (m.lab a) ts <;> rfl
            · rw [if_neg (fun hc => el hc.2), if_neg (Ne.symm el), Option.or_none]
          · simp only [ebs, if_false]
            rw [if_neg (by simp [ea, ets]), g4 a, if_neg ea, if_neg (fun hc => ebs hc.1)]

theorem lastWith_unique {m : Mem} {bs : List Addr} (hn : (bs.map m.lab).Nodup) {b : Addr} (hb : b ∈ bs) : lastWith m (m.lab b) bs = some b := by
  cases h : lastWith m (m.lab b) bs with
  | none =>
    unfold lastWith at h
    rw [List.find?_eq_none] at h
    exact absurd (decide_eq_true rfl) (h b (List.mem_reverse.2 hb))
  | some c =>
    unfold lastWith at h
    have h1 := List.find?_some h
    have h2 := List.mem_reverse.1 (List.mem_of_find?_eq_some h)
    rw [List.inj_on_of_nodup_map hn h2 hb (of_decide_eq_true h1)]

theorem lastWith_none {m : Mem} {bs : List Addr} {l : Label} : lastWith m l bs = none ↔ l ∉ bs.map m.lab := by
  unfold lastWith
  rw [List.find?_eq_none]
  simp only [List.mem_reverse, decide_eq_true_eq, List.mem_map, not_exists, not_and]

/-! ### The constructor -/

/-- What the constructor establishes for any lists: twins are the last intervals in the other list with the same label. -/
structure Made (m m' : Mem) (top bottom : List Label) (ts bs : List Addr) : Prop where
  top : ts.map m'.lab = top
  bottom : bs.map m'.lab = bottom
  nodeTop : ∀ t ∈ ts, m'.node t = some ⟨m'.lab t, lastWith m' (m'.lab t) bs⟩
  nodeBottom : ∀ b ∈ bs, m'.node b = some ⟨m'.lab b, lastWith m' (m'.lab b) ts⟩
  disj : ∀ t ∈ ts, t ∉ bs
  next : m.next ≤ m'.next
  new : ∀ a ∈ ts ++ bs, m.next ≤ a ∧ a < m'.next
  old : ∀ a, a < m.next → m'.node a = m.node a
  ok : m.Ok → m'.Ok

theorem link_new (m : Mem) (top bottom : List Label) :
    ∃ m', Mem.link (m.newList top).1 ((m.newList top).2.newList bottom).1 ((m.newList top).2.newList bottom).2 = .ok m' ∧
      Made m m' top bottom (m.newList top).1 ((m.newList top).2.newList bottom).1 := by
  obtain ⟨a1, a2, a3⟩ := newList_spec top m
  obtain ⟨b1, b2, b3⟩ := newList_spec bottom (m.newList top).2
  set m1 := (m.newList top).2 with hm1
  set m2 := (m1.newList bottom).2 with hm2
  rw [a1, b1]
  rw [a2] at b1 b2 b3 ⊢
  set ts := List.range' m.next top.length with hts
  set bs := List.range' (m.next + top.length) bottom.length with hbs
  have mts : ∀ t, t ∈ ts ↔ m.next ≤ t ∧ t < m.next + top.length := fun t => by rw [hts, List.mem_range'_1]
  have mbs : ∀ t, t ∈ bs ↔ m.next + top.length ≤ t ∧ t < m.next + top.length + bottom.length := fun t => by rw [hbs, List.mem_range'_1]
  have nt : ∀ t ∈ ts, m2.node t = some ⟨top.getD (t - m.next) 0, none⟩ := by
    intro t ht
    rw [mts] at ht
    rw [b3, if_neg (by omega), a3, if_pos ht]
  have nb : ∀ t ∈ bs, m2.node t = some ⟨bottom.getD (t - (m.next + top.length)) 0, none⟩ := by
    intro t ht
    rw [mbs] at ht
    rw [b3, if_pos ht]
  have hd : ∀ t ∈ ts, t ∉ bs := fun t h1 h2 => by rw [mts] at h1; rw [mbs] at h2; omega
  obtain ⟨m', c1, c2, c3, c4⟩ := link_spec ts bs m2 (List.nodup_range' ..) hd (fun t ht => ⟨_, nt t ht⟩) (fun t ht => ⟨_, nb t ht⟩)
  refine ⟨m', c1, ?_, ?_, ?_, ?_, hd, ?_, ?_, ?_, ?_⟩
  · rw [← map_range'_getD top m.next]
    exact List.map_congr_left (fun t ht => by rw [c3, Mem.lab_of_node (nt t ht)])
  · conv_rhs => rw [← map_range'_getD bottom (m.next + top.length)]
    exact List.map_congr_left (fun t ht => by rw [c3, Mem.lab_of_node (nb t ht)])
  · intro t ht
    have hlw : lastWith m' (m'.lab t) bs = lastWith m2 (m2.lab t) bs := by unfold lastWith; simp only [c3]
    rw [c4 t, if_pos ht, hlw, nt t ht, c3, Mem.lab_of_node (nt t ht)]
    simp
  · intro t ht
    have hlw : lastWith m' (m'.lab t) ts = lastWith m2 (m2.lab t) ts := by unfold lastWith; simp only [c3]
    rw [c4 t, if_neg (fun h => hd t h ht), if_pos ht, hlw, nb t ht, c3, Mem.lab_of_node (nb t ht)]
    simp
  · rw [c2, b2]; omega
  · intro a ha
    rw [c2, b2]
    rcases List.mem_append.1 ha with h | h
    · rw [mts] at h; omega
    · rw [mbs] at h; omega
  · intro a ha
    rw [c4 a, if_neg (fun h => by rw [mts] at h; omega), if_neg (fun h => by rw [mbs] at h; omega), b3, if_neg (by omega), a3,
      if_neg (by omega)]
  · intro hm a ha
    rw [c2, b2] at ha
    rw [c4 a, if_neg (fun h => by rw [mts] at h; omega), if_neg (fun h => by rw [mbs] at h; omega), b3, if_neg (by omega), a3,
      if_neg (by omega), hm a (by omega)]

theorem Made.linked {m m' : Mem} {top bottom : List Label} {ts bs : List Addr} (h : Made m m' top bottom ts bs) (hn : top.Nodup)
    (hp : bottom.Perm top) : Linked m' ts bs := by
  have n1 : (ts.map m'.lab).Nodup := h.top ▸ hn
  have n2 : (bs.map m'.lab).Nodup := h.bottom ▸ hp.nodup_iff.2 hn
  refine ⟨?_, ?_, n1, n2, h.disj⟩
  · intro t ht
    have : m'.lab t ∈ bs.map m'.lab := by
      rw [h.bottom]; exact hp.mem_iff.2 (h.top ▸ List.mem_map_of_mem ht)
    obtain ⟨b, hb, e⟩ := List.mem_map.1 this
    refine ⟨b, hb, ?_, ?_⟩
    · rw [h.nodeTop t ht, ← e, lastWith_unique n2 hb]
    · rw [h.nodeBottom b hb, e, lastWith_unique n1 ht]
  · intro t ht
    have : m'.lab t ∈ ts.map m'.lab := by
      rw [h.top]; exact hp.mem_iff.1 (h.bottom ▸ List.mem_map_of_mem ht)
    obtain ⟨b, hb, e⟩ := List.mem_map.1 this
    refine ⟨b, hb, ?_, ?_⟩
    · rw [h.nodeBottom t ht, ← e, lastWith_unique n1 hb]
    · rw [h.nodeTop b hb, e, lastWith_unique n2 ht]

theorem Made.frame {m m' : Mem} {top bottom : List Label} {ts bs : List Addr} (h : Made m m' top bottom ts bs) (hm : m.Ok) (old : List Addr) :
    Frame m m' old (ts ++ bs) :=
  ⟨h.next, fun a ha _ => h.old a ha, fun a ha => .inr (h.new a ha), h.ok hm⟩

/-- The constructor does the same as on the level of labels. -/
theorem mk?_made [Zero T] [DecidableEq T] (O : LengthsOps σ T) (top bottom : List Label) (s : σ) (m : Mem) :
    RelM (fun E r => E = IET.fresh top bottom ∧ r.1 = ⟨r.1.top, r.1.bottom, none, Tracker.init, false⟩ ∧
        Made m r.2 top bottom r.1.top r.1.bottom)
      (IET.mk? O top bottom s : M (IET T)) (PIET.mk? O top bottom s m) := by
  obtain ⟨m', e, h⟩ := link_new m top bottom
  unfold IET.mk? PIET.mk?
  dsimp only
  refine RelM.refl_bind fun _ _ => ?_
  refine RelM.refl_bind fun _ _ => ?_
  refine RelM.refl_bind fun _ _ => ?_
  rw [e, ok_bind]
  refine RelM.refl_bind fun _ _ => ?_
  refine RelM.refl_bind fun _ _ => ?_
  refine RelM.refl_bind fun _ _ => ?_
  exact ⟨rfl, rfl, h⟩

/-! ### Erasing -/

theorem eraseAll_spec : ∀ (l : List Addr) (m : Mem), l.Nodup → (∀ a ∈ l, m.Live a) →
    ∃ m', Mem.eraseAll l m = .ok (l.map m.lab, m') ∧ m'.next = m.next ∧ ∀ a, m'.node a = if a ∈ l then none else m.node a
  | [], m, _, _ => ⟨m, rfl, rfl, fun a => by simp⟩
  | x :: l, m, h1, h2 => by
    obtain ⟨hx, h1'⟩ := List.nodup_cons.1 h1
    have hne : ∀ a ∈ l, a ≠ x := fun a ha e => hx (e ▸ ha)
    have hnode : ∀ a, (m.free x).node a = if a = x then none else m.node a := fun a => rfl
    obtain ⟨m', g1, g2, g3⟩ := eraseAll_spec l (m.free x) h1' (fun a ha => by
      obtain ⟨n, hn⟩ := h2 a (List.mem_cons_of_mem _ ha)
      exact ⟨n, by rw [hnode, if_neg (hne a ha), hn]⟩)
    refine ⟨m', ?_, g2, fun a => ?_⟩
    · simp only [Mem.eraseAll]
      rw [Mem.label_ok (h2 x List.mem_cons_self), ok_bind, g1, ok_bind]
      have : l.map (m.free x).lab = l.map m.lab := List.map_congr_left (fun a ha => by
        rw [Mem.lab, Mem.lab, hnode, if_neg (hne a ha)])
      rw [this]; rfl
    · rw [g3 a, hnode]
      by_cases e : a = x
      · simp [e]
      · by_cases e' : a ∈ l
        · simp [e']
        · simp [e, e']

end Verif
