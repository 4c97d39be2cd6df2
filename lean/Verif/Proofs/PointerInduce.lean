import Verif.Proofs.PointerNew

/-!
# Splitting and merging, the induction, and histories on list nodes
-/

namespace Verif

set_option linter.unusedSectionVars false

variable {σ T : Type}

private theorem bindM_ok' {α β : Type} {x : M α} {f : α → M β} {b : β} : (x >>= f) = .ok b ↔ ∃ a, x = .ok a ∧ f a = .ok b := by
  cases x with
  | error e => simp [bind, Except.bind]
  | ok a => simp [bind, Except.bind]

/-- The nodes of an IET. -/
def PIET.nodes (P : PIET T) : List Addr := P.top ++ P.bottom

theorem Linked.sub {m : Mem} {ts bs ts' bs' : List Addr} (h : Linked m ts bs) (h1 : ts'.Sublist ts) (h2 : bs'.Sublist bs)
    (hp : (bs'.map m.lab).Perm (ts'.map m.lab)) : Linked m ts' bs' := by
  refine ⟨?_, ?_, h.nodup.sublist (h1.map _), h.nodup'.sublist (h2.map _), fun t ht hb => h.disj t (h1.subset ht) (h2.subset hb)⟩
  · intro t ht
    obtain ⟨b, hb, e1, e2⟩ := h.pair t (h1.subset ht)
    have : m.lab t ∈ bs'.map m.lab := hp.mem_iff.2 (List.mem_map_of_mem ht)
    obtain ⟨b', hb', e⟩ := List.mem_map.1 this
    have : b' = b := h.symm.inj (h2.subset hb') hb (e.trans (Mem.lab_of_node e2).symm)
    exact ⟨b, this ▸ hb', e1, e2⟩
  · intro t ht
    obtain ⟨b, hb, e1, e2⟩ := h.pair' t (h2.subset ht)
    have : m.lab t ∈ ts'.map m.lab := hp.mem_iff.1 (List.mem_map_of_mem ht)
    obtain ⟨b', hb', e⟩ := List.mem_map.1 this
    have : b' = b := h.inj (h1.subset hb') hb (e.trans (Mem.lab_of_node e2).symm)
    exact ⟨b, this ▸ hb', e1, e2⟩

/-- How the IET that has been split off and the one that remains are represented after a call on `P`. -/
structure SplitRel (m : Mem) (P : PIET T) (R : Option (IET T)) (E : IET T) (R' : Option (PIET T)) (P' : PIET T) (m' : Mem) : Prop where
  rep : Rep m' P' E
  reps : List.Forall₂ (fun Q F => Rep m' Q F) R'.toList R.toList
  disj : ∀ Q ∈ R', ∀ a ∈ Q.nodes, a ∉ P'.nodes
  frame : Frame m m' P.nodes (P'.nodes ++ R'.toList.flatMap PIET.nodes)

theorem SplitRel.none {m m' : Mem} {P P' : PIET T} {E : IET T} (h : Rep m' P' E) (hf : Frame m m' P.nodes P'.nodes) :
    SplitRel m P none E none P' m' :=
  ⟨h, .nil, by simp, by simpa using hf⟩

theorem reduce_sim [Zero T] [DecidableEq T] (O : LengthsOps σ T) {P : PIET T} {E : IET T} {m : Mem} (h : Rep m P E) (hm : m.Ok) (s : σ) :
    RelM (fun x y => SplitRel m P x.1 x.2 y.1 y.2.1 y.2.2 ∧ (y.1 = none → y.2.1 = P ∧ y.2.2 = m ∧
        IET.reduceLoop E.top E.bottom [] 0 0 0 = .ok E.top.length))
      (E.reduce O s) (P.reduce O s m) := by
  unfold IET.reduce PIET.reduce
  have hr := reduceLoop_sim₀ h.linked
  rw [h.top, h.bottom] at hr
  refine hr.bind' ?_
  rintro k _ hk _ rfl
  dsimp only
  have hn : E.top.Nodup := h.top ▸ h.linked.nodup
  have hp : E.bottom.Perm E.top := h.top ▸ h.bottom ▸ h.linked.perm
  have lt : E.top.length = P.top.length := by rw [← h.top]; simp
  have lb : E.bottom.length = P.bottom.length := by rw [← h.bottom]; simp
  have hne : E.top ≠ [] := by
    intro e; rw [e] at hk; simp only [IET.reduceLoop] at hk; exact absurd hk (by simp)
  obtain ⟨k', e1, e2, e3, e4, e5⟩ := reduceLoop_spec₀ hn hp hne
  rw [hk] at e1
  obtain rfl := Except.ok.inj e1
  rw [lt, lb]
  by_cases c : k = P.top.length
  · rw [if_pos c, if_pos c]
    refine RelM.refl_bind fun _ _ => ?_
    refine ⟨SplitRel.none h (Frame.refl hm (fun _ ha => ha)), fun _ => ⟨rfl, rfl, ?_⟩⟩
    rw [hk, c]
  · rw [if_neg c, if_neg c]
    have dt : P.top.Nodup := h.linked.nodupTop
    have db : P.bottom.Nodup := h.linked.nodupBottom
    obtain ⟨m1, f1, f2, f3⟩ := eraseAll_spec (P.top.drop k) m (dt.sublist (List.drop_sublist _ _))
      (fun a ha => h.linked.live (List.mem_of_mem_drop ha))
    have hdb : ∀ a ∈ P.bottom, a ∉ P.top.drop k := fun a ha hc => h.linked.disj a (List.mem_of_mem_drop hc) ha
    obtain ⟨m2, g1, g2, g3⟩ := eraseAll_spec (P.bottom.drop k) m1 (db.sublist (List.drop_sublist _ _))
      (fun a ha => by
        obtain ⟨n, hn⟩ := h.linked.live' (List.mem_of_mem_drop ha)
        exact ⟨n, by rw [f3, if_neg (hdb a (List.mem_of_mem_drop ha)), hn]⟩)
    have hm1lab : (P.bottom.drop k).map m1.lab = E.bottom.drop k := by
      rw [← h.bottom, ← List.map_drop]
      exact List.map_congr_left (fun a ha => by
        rw [Mem.lab, Mem.lab, f3, if_neg (hdb a (List.mem_of_mem_drop ha))])
    have hmlab : (P.top.drop k).map m.lab = E.top.drop k := by
      rw [← h.top, ← List.map_drop]
    rw [f1, ok_bind, hmlab]
    dsimp only
    rw [g1, ok_bind, hm1lab]
    have n2 : ∀ a, m2.node a = if a ∈ P.top.drop k ∨ a ∈ P.bottom.drop k then none else m.node a := by
      intro a
      rw [g3, f3]
      by_cases c1 : a ∈ P.bottom.drop k
      · simp [c1]
      · by_cases c2 : a ∈ P.top.drop k
        · simp [c2]
        · simp [c1, c2]
    have ok2 : m2.Ok := by
      intro a ha
      rw [n2]
      split
      · rfl
      · exact hm a (by rw [g2, f2] at ha; exact ha)
    have frame2 : Frame m m2 P.nodes (P.top.take k ++ P.bottom.take k) := by
      refine ⟨by rw [g2, f2], ?_, ?_, ok2⟩
      · intro a _ hna
        rw [n2, if_neg]
        rintro (hc | hc)
        · exact hna (List.mem_append_left _ (List.mem_of_mem_drop hc))
        · exact hna (List.mem_append_right _ (List.mem_of_mem_drop hc))
      · intro a ha
        left
        rcases List.mem_append.1 ha with hc | hc
        · exact List.mem_append_left _ (List.mem_of_mem_take hc)
        · exact List.mem_append_right _ (List.mem_of_mem_take hc)
    have hlen : ({ E with top := E.top.take k, bottom := E.bottom.take k, safCache := none } : IET T).top.length =
      ({ P with top := P.top.take k, bottom := P.bottom.take k, safCache := none } : PIET T).top.length := by simp [lt]
    have hlen' : ({ E with top := E.top.take k, bottom := E.bottom.take k, safCache := none } : IET T).bottom.length =
      ({ P with top := P.top.take k, bottom := P.bottom.take k, safCache := none } : PIET T).bottom.length := by simp [lb]
    dsimp only at hlen hlen' ⊢
    rw [hlen, hlen']
    refine RelM.refl_bind fun _ _ => ?_
    refine (mk?_made O (E.top.drop k) (E.bottom.drop k) s m2).bind ?_
    rintro R ⟨R', m3⟩ ⟨rfl, eR, hmade⟩
    dsimp only at eR hmade ⊢
    have hdrop : (E.bottom.drop k).Perm (E.top.drop k) := by
      have h1 : (E.bottom.take k ++ E.bottom.drop k).Perm (E.top.take k ++ E.top.drop k) := by
        rw [List.take_append_drop, List.take_append_drop]; exact hp
      exact (List.perm_append_left_iff _).1 ((e4.append_right _).trans h1)
    have hR : Rep m3 R' (IET.fresh (E.top.drop k) (E.bottom.drop k)) := by
      refine ⟨hmade.linked (hn.sublist (List.drop_sublist _ _)) hdrop, hmade.top, hmade.bottom, ?_, ?_, ?_⟩ <;> rw [eR] <;> rfl
    have hkeep : ∀ a ∈ P.top.take k ++ P.bottom.take k, a < m2.next ∧ m3.node a = m.node a := by
      intro a ha
      have hnd : ¬ (a ∈ P.top.drop k ∨ a ∈ P.bottom.drop k) := by
        rcases List.mem_append.1 ha with h1 | h1 <;> rintro (h2 | h2)
        · have := List.nodup_append.1 ((List.take_append_drop k P.top).symm ▸ dt)
          exact this.2.2 a h1 a h2 rfl
        · exact h.linked.disj a (List.mem_of_mem_take h1) (List.mem_of_mem_drop h2)
        · exact h.linked.disj a (List.mem_of_mem_drop h2) (List.mem_of_mem_take h1)
        · have := List.nodup_append.1 ((List.take_append_drop k P.bottom).symm ▸ db)
          exact this.2.2 a h1 a h2 rfl
      have hlive : ∃ n, m.node a = some n := by
        rcases List.mem_append.1 ha with h1 | h1
        · exact h.linked.live (List.mem_of_mem_take h1)
        · exact h.linked.live' (List.mem_of_mem_take h1)
      have hlt : a < m2.next := by
        by_contra hc
        obtain ⟨n, hn⟩ := hlive
        rw [g2, f2] at hc
        rw [hm a (by omega)] at hn
        exact absurd hn (by simp)
      refine ⟨hlt, ?_⟩
      rw [hmade.old a hlt, n2, if_neg hnd]
    have hL0 : Rep m ({ P with top := P.top.take k, bottom := P.bottom.take k, safCache := none } : PIET T)
        { E with top := E.top.take k, bottom := E.bottom.take k, safCache := none } := by
      refine ⟨h.linked.sub (List.take_sublist _ _) (List.take_sublist _ _) ?_, ?_, ?_, rfl, h.tracker, h.swapped⟩
      · rw [List.map_take, List.map_take, h.top, h.bottom]; exact e4.symm
      · simp only [List.map_take, h.top]
      · simp only [List.map_take, h.bottom]
    refine ⟨⟨?_, ?_, ?_, ?_⟩, fun hc => absurd hc (by simp)⟩
    · exact hL0.frame (fun a ha => (hkeep a ha).2)
    · exact .cons hR .nil
    · intro Q hQ a ha hc
      simp only [Option.mem_def, Option.some.injEq] at hQ
      subst hQ
      have h1 := hmade.new a ha
      have h2 := (hkeep a hc).1
      omega
    · have ff : Frame m2 m3 (P.top.take k ++ P.bottom.take k) (P.top.take k ++ P.bottom.take k ++ R'.nodes) := by
        refine ⟨hmade.next, fun a ha _ => hmade.old a ha, ?_, hmade.ok ok2⟩
        intro a ha
        rcases List.mem_append.1 ha with h1 | h1
        · exact .inl h1
        · exact .inr (hmade.new a h1)
      have := frame2.trans ff
      simpa [PIET.nodes] using this

/-! ### Merging -/

theorem insertAt_append {q : Addr} (new : List Addr) : ∀ {pre suf : List Addr}, q ∉ pre →
    PIET.insertAt q new (pre ++ q :: suf) = .ok (pre ++ (new ++ q :: suf))
  | [], suf, _ => by simp [PIET.insertAt]
  | c :: pre, suf, h => by
    simp only [List.cons_append, PIET.insertAt]
    rw [if_neg (fun e : c = q => h (by rw [e]; exact List.mem_cons_self)), insertAt_append new (fun e => h (List.mem_cons_of_mem _ e))]
    rfl

theorem eraseAt_append {q : Addr} : ∀ {pre suf : List Addr}, q ∉ pre → PIET.eraseAt q (pre ++ q :: suf) = .ok (pre ++ suf)
  | [], suf, _ => by simp [PIET.eraseAt]
  | c :: pre, suf, h => by
    simp only [List.cons_append, PIET.eraseAt]
    rw [if_neg (fun e : c = q => h (by rw [e]; exact List.mem_cons_self)), eraseAt_append (fun e => h (List.mem_cons_of_mem _ e))]
    rfl

theorem merge_sim {P : PIET T} {E : IET T} {m : Mem} (h : Rep m P E) (hm : m.Ok) {t b : Addr} {top bottom : List Addr}
    (hT : P.top = t :: top) (hB : P.bottom = b :: bottom) (hne : m.lab t ≠ m.lab b) :
    ∃ n n' P' m', m.read t = .ok n ∧ m.read b = .ok n' ∧ n.label = m.lab t ∧ n'.label = m.lab b ∧
      P.merge n n' m = .ok (P', m') ∧
      Rep m' P' { E with top := top.map m.lab, bottom := IET.mergeBottom (m.lab b) (m.lab t) (bottom.map m.lab) } ∧
      Frame m m' P.nodes P'.nodes := by
  have hL := h.linked
  rw [hT, hB] at hL
  obtain ⟨q, hq, q1, q2⟩ := hL.pair t List.mem_cons_self
  obtain ⟨u, hu, u1, u2⟩ := hL.pair' b List.mem_cons_self
  have hqb : q ≠ b := fun e => by
    rw [e] at q2; exact hne (by rw [Mem.lab_of_node q2])
  have hut : u ≠ t := fun e => by
    rw [e] at u2; exact hne (by rw [Mem.lab_of_node u2])
  have hq' : q ∈ bottom := (List.mem_cons.1 hq).resolve_left hqb
  have hu' : u ∈ top := (List.mem_cons.1 hu).resolve_left hut
  obtain ⟨pre, suf, hps⟩ := List.append_of_mem hq'
  have ndb := hL.nodupBottom
  rw [hps] at ndb
  have ndt := hL.nodupTop
  have hqpre : q ∉ b :: pre := by
    intro hc
    rw [← List.cons_append, List.nodup_append] at ndb
    exact ndb.2.2 q hc q List.mem_cons_self rfl
  have lt : ∀ a, (∃ n, m.node a = some n) → a < m.next := by
    rintro a ⟨n, hn⟩
    by_contra hc
    rw [hm a (by omega)] at hn
    exact absurd hn (by simp)
  have ltt : ∀ a ∈ t :: top, a < m.next := fun a ha => lt a (hL.live ha)
  have ltb : ∀ a ∈ b :: bottom, a < m.next := fun a ha => lt a (hL.live' ha)
  have hrb : m.next ≠ b := (ltb b List.mem_cons_self).ne'
  have hrt : m.next ≠ t := (ltt t List.mem_cons_self).ne'
  have hru : m.next ≠ u := (ltt u hu).ne'
  have hrq : m.next ≠ q := (ltb q hq).ne'
  have hub : u ≠ b := fun e => hL.disj u hu (e ▸ List.mem_cons_self)
  have huq : u ≠ q := fun e => hL.disj u hu (e ▸ hq)
  have htq : t ≠ q := fun e => hL.disj t List.mem_cons_self (e ▸ hq)
  -- the memory in the end
  let m' : Mem := ⟨fun a => if a = q ∨ a = t ∨ a = b then none else if a = u then some ⟨m.lab b, some m.next⟩
    else if a = m.next then some ⟨m.lab b, some u⟩ else m.node a, m.next + 1⟩
  have hlabp : ∀ a, a ∈ top ∨ a ∈ pre ∨ a ∈ suf → m'.lab a = m.lab a := by
    intro a ha
    have h1 : a ≠ q := by
      rintro rfl
      rcases ha with ha | ha | ha
      · exact hL.disj a (List.mem_cons_of_mem _ ha) hq
      · exact hqpre (List.mem_cons_of_mem _ ha)
      · have := (List.nodup_cons.1 ndb).2
        rw [List.nodup_append] at this
        exact (List.nodup_cons.1 this.2.1).1 ha
    have h2 : a ≠ t := by
      rintro rfl
      rcases ha with ha | ha | ha
      · exact (List.nodup_cons.1 ndt).1 ha
      · exact hL.disj a List.mem_cons_self (List.mem_cons_of_mem _ (by rw [hps]; simp [ha]))
      · exact hL.disj a List.mem_cons_self (List.mem_cons_of_mem _ (by rw [hps]; simp [ha]))
    have h3 : a ≠ b := by
      rintro rfl
      rcases ha with ha | ha | ha
      · exact hL.disj a (List.mem_cons_of_mem _ ha) List.mem_cons_self
      · exact (List.nodup_cons.1 ndb).1 (by simp [ha])
      · exact (List.nodup_cons.1 ndb).1 (by simp [ha])
    have h4 : a ≠ m.next := by
      rintro e
      rcases ha with ha | ha | ha
      · exact (ltt a (List.mem_cons_of_mem _ ha)).ne e
      · exact (ltb a (List.mem_cons_of_mem _ (by rw [hps]; simp [ha]))).ne e
      · exact (ltb a (List.mem_cons_of_mem _ (by rw [hps]; simp [ha]))).ne e
    by_cases h5 : a = u
    · subst h5
      simp only [Mem.lab, m', h1, h2, h3, or_self, if_false, if_true, Option.map_some, Option.getD_some]
      rw [u2]; rfl
    · simp only [Mem.lab, m', h1, h2, h3, h4, h5, or_self, if_false]
  have hnodep : ∀ a, a ∈ top ∨ a ∈ pre ∨ a ∈ suf → a ≠ u → m'.node a = m.node a := by
    intro a ha h5
    have h1 : a ≠ q := by
      rintro rfl
      rcases ha with ha | ha | ha
      · exact hL.disj a (List.mem_cons_of_mem _ ha) hq
      · exact hqpre (List.mem_cons_of_mem _ ha)
      · have := (List.nodup_cons.1 ndb).2
        rw [List.nodup_append] at this
        exact (List.nodup_cons.1 this.2.1).1 ha
    have h2 : a ≠ t := by
      rintro rfl
      rcases ha with ha | ha | ha
      · exact (List.nodup_cons.1 ndt).1 ha
      · exact hL.disj a List.mem_cons_self (List.mem_cons_of_mem _ (by rw [hps]; simp [ha]))
      · exact hL.disj a List.mem_cons_self (List.mem_cons_of_mem _ (by rw [hps]; simp [ha]))
    have h3 : a ≠ b := by
      rintro rfl
      rcases ha with ha | ha | ha
      · exact hL.disj a (List.mem_cons_of_mem _ ha) List.mem_cons_self
      · exact (List.nodup_cons.1 ndb).1 (by simp [ha])
      · exact (List.nodup_cons.1 ndb).1 (by simp [ha])
    have h4 : a ≠ m.next := by
      rintro e
      rcases ha with ha | ha | ha
      · exact (ltt a (List.mem_cons_of_mem _ ha)).ne e
      · exact (ltb a (List.mem_cons_of_mem _ (by rw [hps]; simp [ha]))).ne e
      · exact (ltb a (List.mem_cons_of_mem _ (by rw [hps]; simp [ha]))).ne e
    simp only [m', h1, h2, h3, h4, h5, or_self, if_false]
  have hnu : m'.node u = some ⟨m.lab b, some m.next⟩ := by
    simp only [m', huq, hut, hub, or_self, if_false, if_true]
  have hnr : m'.node m.next = some ⟨m.lab b, some u⟩ := by
    simp only [m', hrq, hrt, hrb, hru, or_self, if_false, if_true]
  have hlu : m'.lab u = m.lab b := Mem.lab_of_node hnu
  have hlr : m'.lab m.next = m.lab b := Mem.lab_of_node hnr
  refine ⟨⟨m.lab t, some q⟩, ⟨m.lab b, some u⟩, { P with top := top, bottom := pre ++ m.next :: suf }, m', Mem.read_ok q1, Mem.read_ok u1, rfl, rfl,
    ?_, ⟨⟨?_, ?_, ?_, ?_, ?_⟩, ?_, ?_, h.safCache, h.tracker, h.swapped⟩, ?_⟩
  · -- the computation
    simp only [PIET.merge]
    have e1 : (m.alloc ⟨m.lab b, some u⟩).1 = m.next := rfl
    rw [e1, hB, hps, ← List.cons_append, insertAt_append [m.next] hqpre, ok_bind]
    simp only [List.cons_append, PIET.popFront]
    rw [ok_bind]
    dsimp only
    have hr1 : ((m.alloc ⟨m.lab b, some u⟩).2.free b).node m.next = some ⟨m.lab b, some u⟩ := by
      simp [Mem.alloc, Mem.free, Mem.put, hrb]
    have hu1 : ((m.alloc ⟨m.lab b, some u⟩).2.free b).node u = some ⟨m.lab b, some b⟩ := by
      simp [Mem.alloc, Mem.free, Mem.put, hub, hru.symm, u2]
    rw [Mem.twin_ok hr1, ok_bind, Mem.setTwin_ok ⟨_, hu1⟩, ok_bind, hT]
    simp only [PIET.popFront]
    rw [ok_bind]
    dsimp only
    have hqr : q ∉ pre ++ [m.next] := by
      intro hc
      rcases List.mem_append.1 hc with hc | hc
      · exact hqpre (List.mem_cons_of_mem _ hc)
      · exact hrq.symm (by simpa using hc)
    have e2 : pre ++ ([] ++ m.next :: q :: suf) = (pre ++ [m.next]) ++ q :: suf := by simp
    simp only [List.nil_append] at e2 ⊢
    rw [e2, eraseAt_append hqr, ok_bind]
    have e3 : pre ++ [m.next] ++ suf = pre ++ m.next :: suf := by simp
    rw [e3, Mem.lab_of_node hu1, pure_ok]
    congr 2
    refine Mem.ext' rfl (fun a => ?_)
    simp only [Mem.free, Mem.put, Mem.alloc, m']
    by_cases c1 : a = q
    · simp [c1]
    by_cases c2 : a = t
    · simp [c2]
    by_cases c3 : a = b
    · simp [c1, c2, c3, hub.symm]
    by_cases c4 : a = u
    · subst c4; simp [c1, c2, c3]
    · simp [c1, c2, c3, c4]
  · intro x hx
    by_cases hxu : x = u
    · subst hxu
      exact ⟨m.next, by simp, by rw [hnu, hlu], by rw [hnr, hlu]⟩
    · obtain ⟨y, hy, y1, y2⟩ := hL.pair x (List.mem_cons_of_mem _ hx)
      have hyb : y ≠ b := fun e => by
        rw [e, u1] at y2
        simp only [Option.some.injEq, Node.mk.injEq] at y2
        exact hxu y2.2.symm
      have hyq : y ≠ q := fun e => by
        rw [e, q2] at y2
        simp only [Option.some.injEq, Node.mk.injEq] at y2
        rw [← y2.2] at hx
        exact (List.nodup_cons.1 ndt).1 hx
      have hy' := (List.mem_cons.1 hy).resolve_left hyb
      rw [hps] at hy'
      have hyps : y ∈ pre ∨ y ∈ suf := by
        rcases List.mem_append.1 hy' with h1 | h1
        · exact .inl h1
        · exact .inr ((List.mem_cons.1 h1).resolve_left hyq)
      have hyu : y ≠ u := fun e => hL.disj u hu (e ▸ hy)
      refine ⟨y, ?_, ?_, ?_⟩
      · rcases hyps with h1 | h1 <;> simp [h1]
      · rw [hnodep x (.inl hx) hxu, hlabp x (.inl hx), y1]
      · rw [hnodep y (.inr hyps) hyu, hlabp x (.inl hx), y2]
  · intro x hx
    have hx' : x = m.next ∨ x ∈ pre ∨ x ∈ suf := by
      simp only [List.mem_append, List.mem_cons] at hx; tauto
    rcases hx' with rfl | hx'
    · exact ⟨u, hu', by rw [hnr, hlr], by rw [hnu, hlr]⟩
    · have hxb : x ∈ b :: bottom := by
        rw [hps]; rcases hx' with h1 | h1 <;> simp [h1]
      obtain ⟨y, hy, y1, y2⟩ := hL.pair' x hxb
      have hxq : x ≠ q := by
        rintro rfl
        rcases hx' with h1 | h1
        · exact hqpre (List.mem_cons_of_mem _ h1)
        · have := (List.nodup_cons.1 ndb).2
          rw [List.nodup_append] at this
          exact (List.nodup_cons.1 this.2.1).1 h1
      have hxb' : x ≠ b := by
        rintro rfl
        rcases hx' with h1 | h1
        · exact (List.nodup_cons.1 ndb).1 (by simp [h1])
        · exact (List.nodup_cons.1 ndb).1 (by simp [h1])
      have hyt : y ≠ t := fun e => by
        rw [e, q1] at y2
        simp only [Option.some.injEq, Node.mk.injEq] at y2
        exact hxq y2.2.symm
      have hyu : y ≠ u := fun e => by
        rw [e, u2] at y2
        simp only [Option.some.injEq, Node.mk.injEq] at y2
        exact hxb' y2.2.symm
      have hxu : x ≠ u := fun e => hL.disj u hu (e ▸ hxb)
      have hy' := (List.mem_cons.1 hy).resolve_left hyt
      refine ⟨y, hy', ?_, ?_⟩
      · rw [hnodep x (.inr hx') hxu, hlabp x (.inr hx'), y1]
      · rw [hnodep y (.inl hy') hyu, hlabp x (.inr hx'), y2]
  · have : top.map m'.lab = top.map m.lab := List.map_congr_left (fun a ha => hlabp a (.inl ha))
    rw [this]
    have := hL.nodup
    rw [List.map_cons] at this
    exact (List.nodup_cons.1 this).2
  · have e1 : pre.map m'.lab = pre.map m.lab := List.map_congr_left (fun a ha => hlabp a (.inr (.inl ha)))
    have e2 : suf.map m'.lab = suf.map m.lab := List.map_congr_left (fun a ha => hlabp a (.inr (.inr ha)))
    rw [List.map_append, List.map_cons, e1, e2, hlr]
    have hs : (m.lab b :: (pre.map m.lab ++ suf.map m.lab)).Sublist ((b :: bottom).map m.lab) := by
      rw [hps]
      simp only [List.map_cons, List.map_append]
      exact ((List.Sublist.refl _).append (List.sublist_cons_self _ _)).cons_cons _
    exact (List.perm_middle.nodup_iff).2 (hL.nodup'.sublist hs)
  · intro x hx hc
    have hx' : x ∈ t :: top := List.mem_cons_of_mem _ hx
    simp only [List.mem_append, List.mem_cons] at hc
    rcases hc with hc | rfl | hc
    · exact hL.disj x hx' (List.mem_cons_of_mem _ (by rw [hps]; simp [hc]))
    · exact (ltt _ hx').ne rfl
    · exact hL.disj x hx' (List.mem_cons_of_mem _ (by rw [hps]; simp [hc]))
  · exact List.map_congr_left (fun a ha => hlabp a (.inl ha))
  · have e1 : pre.map m'.lab = pre.map m.lab := List.map_congr_left (fun a ha => hlabp a (.inr (.inl ha)))
    have e2 : suf.map m'.lab = suf.map m.lab := List.map_congr_left (fun a ha => hlabp a (.inr (.inr ha)))
    simp only [List.map_append, List.map_cons, e1, e2, hlr]
    rw [hps, List.map_append, List.map_cons, Mem.lab_of_node q2, mergeBottom_append _ _ _ _ ?_]
    intro hc
    obtain ⟨y, hy, e⟩ := List.mem_map.1 hc
    have := hL.symm.inj (List.mem_cons_of_mem _ (by rw [hps]; simp [hy])) hq (e.trans (Mem.lab_of_node q2).symm)
    exact hqpre (List.mem_cons_of_mem _ (this ▸ hy))
  · refine ⟨Nat.le_succ _, ?_, ?_, ?_⟩
    · intro a ha hna
      simp only [PIET.nodes, hT, hB] at hna
      have h1 : a ≠ q := fun e => hna (e ▸ List.mem_append_right _ hq)
      have h2 : a ≠ t := fun e => hna (e ▸ List.mem_append_left _ List.mem_cons_self)
      have h3 : a ≠ b := fun e => hna (e ▸ List.mem_append_right _ List.mem_cons_self)
      have h4 : a ≠ u := fun e => hna (e ▸ List.mem_append_left _ hu)
      have h5 : a ≠ m.next := ha.ne
      simp only [m', h1, h2, h3, h4, h5, or_self, if_false]
    · intro a ha
      simp only [PIET.nodes, List.mem_append, List.mem_cons, hT, hB, hps] at ha ⊢
      have : m.next < m'.next := Nat.lt_succ_self _
      rcases ha with ha | ha | rfl | ha
      · tauto
      · tauto
      · right; exact ⟨le_refl _, this⟩
      · tauto
    · intro a ha
      have ha : m.next + 1 ≤ a := ha
      have h1 : a ≠ q := by have := ltb q hq; omega
      have h2 : a ≠ t := by have := ltt t List.mem_cons_self; omega
      have h3 : a ≠ b := by have := ltb b List.mem_cons_self; omega
      have h4 : a ≠ u := by have := ltt u hu; omega
      have h5 : a ≠ m.next := by omega
      simp only [m', h1, h2, h3, h4, h5, or_self, if_false]
      exact hm a (by omega)

/-! ### The induction -/

theorem IET.saf_same (O : LengthsOps σ T) {E E' : IET T} {s : σ} {v : List ℚ} (h : E.saf O s = .ok (v, E')) :
    E'.top = E.top ∧ E'.bottom = E.bottom ∧ E'.swapped = E.swapped := by
  unfold IET.saf at h
  split at h
  · cases h; exact ⟨rfl, rfl, rfl⟩
  · rw [bindM_ok'] at h
    obtain ⟨v', _, h⟩ := h
    cases h; exact ⟨rfl, rfl, rfl⟩

theorem IET.saf0_same (O : LengthsOps σ T) {E E' : IET T} {s : σ} {v : Bool} (h : E.saf0 O s = .ok (v, E')) :
    E'.top = E.top ∧ E'.bottom = E.bottom ∧ E'.swapped = E.swapped := by
  unfold IET.saf0 at h
  rw [bindM_ok'] at h
  obtain ⟨⟨v', E1⟩, h1, h⟩ := h
  cases h
  exact IET.saf_same O h1

theorem IET.safInvariant_same (O : LengthsOps σ T) {E E' : IET T} {s : σ} {v : List ℚ} (h : E.safInvariant O s = .ok (v, E')) :
    E'.top = E.top ∧ E'.bottom = E.bottom ∧ E'.swapped = E.swapped := by
  unfold IET.safInvariant at h
  rw [bindM_ok'] at h
  obtain ⟨⟨v', E1⟩, h1, h⟩ := h
  cases h
  exact IET.saf_same O h1

theorem IET.bosh_same (L : PPL) (O : LengthsOps σ T) {E E' : IET T} {s : σ} {v : Bool}
    (h : E.boshernitzanNoPeriodicTrajectory L O s = .ok (v, E')) :
    E'.top = E.top ∧ E'.bottom = E.bottom ∧ E'.swapped = E.swapped := by
  unfold IET.boshernitzanNoPeriodicTrajectory at h
  rw [bindM_ok'] at h
  obtain ⟨⟨z, E1⟩, h1, h⟩ := h
  have := IET.saf0_same O h1
  dsimp only at h
  split at h
  · cases h; exact this
  · split at h
    · cases h; exact this
    · rw [bindM_ok'] at h
      obtain ⟨_, _, h⟩ := h
      rw [bindM_ok'] at h
      obtain ⟨_, _, h⟩ := h
      rw [bindM_ok'] at h
      obtain ⟨_, _, h⟩ := h
      cases h; exact this

variable [CommRing T] [LinearOrder T]

theorem IET.trackerLoop_same (O : LengthsOps σ T) {E E' : IET T} {s : σ} {v : Bool} (h : E.trackerLoop O s = .ok (v, E')) :
    E'.top = E.top ∧ E'.bottom = E.bottom ∧ E'.swapped = E.swapped := by
  unfold IET.trackerLoop at h
  by_cases c : E.tracker.ttl = 0
  · rw [if_pos c, bindM_ok'] at h
    obtain ⟨_, _, h⟩ := h
    cases h; exact ⟨rfl, rfl, rfl⟩
  · rw [if_neg c] at h
    dsimp only at h
    split at h
    · cases h; exact ⟨rfl, rfl, rfl⟩
    · rw [bindM_ok'] at h
      obtain ⟨_, _, h⟩ := h
      split at h
      · cases h; exact ⟨rfl, rfl, rfl⟩
      · rw [bindM_ok'] at h
        obtain ⟨_, _, h⟩ := h
        cases h; exact ⟨rfl, rfl, rfl⟩

theorem IET.trackStep_same (O : LengthsOps σ T) {E E' : IET T} {s : σ} {z v : Bool} (h : E.trackStep O z s = .ok (v, E')) :
    E'.top = E.top ∧ E'.bottom = E.bottom ∧ E'.swapped = E.swapped := by
  unfold IET.trackStep at h
  split at h
  · rw [bindM_ok'] at h
    obtain ⟨⟨v', E1⟩, h1, h⟩ := h
    have h2 := IET.saf_same O h1
    dsimp only at h
    split at h
    · cases h; exact h2
    · have h3 := IET.trackerLoop_same O h
      exact ⟨h3.1.trans h2.1, h3.2.1.trans h2.2.1, h3.2.2.trans h2.2.2⟩
  · cases h; exact ⟨rfl, rfl, rfl⟩

theorem SameNodes.trans {m : Mem} {P P' : PIET T} {α : Type} {x : α × IET T × σ} {y : α × PIET T × σ} (h : SameNodes m P' x y)
    (hp : (P'.top ++ P'.bottom).Perm (P.top ++ P.bottom)) (hl : P'.top.length = P.top.length) : SameNodes m P x y :=
  ⟨h.1, h.2.1, h.2.2.1, h.2.2.2.1.trans hp, h.2.2.2.2.trans hl⟩

theorem SameNodes.swap {m : Mem} {P : PIET T} {α β : Type} {x : α} {y : α} {E : IET T} {P' : PIET T} {s s' : σ} {v : β}
    (h : SameNodes m P (x, E, s) (y, P', s')) : SameNodes m P (v, E.swap, s) (v, P'.swap, s') := by
  obtain ⟨_, h2, h3, h4, h5⟩ := h
  refine ⟨rfl, h2.swap, h3, List.perm_append_comm.trans h4, ?_⟩
  rw [← h5]; exact h2.linked.length_eq

theorem induceLoop_sim (O : LengthsOps σ T) (z : Bool) {m : Mem} : ∀ (n : ℕ) {P : PIET T} {E : IET T} (_ : Rep m P E) (s : σ),
    RelM (SameNodes m P) (E.induceLoop O z n s) (P.induceLoop m O z n s)
  | 0, P, E, h, s => ⟨rfl, h, rfl, List.Perm.refl _, rfl⟩
  | n + 1, P, E, h, s => by
    unfold IET.induceLoop PIET.induceLoop
    rw [h.view, ok_bind]
    refine RelM.refl_bind ?_
    rintro ⟨lp, E1⟩ e1
    have h1 := IET.trackStep_same O e1
    have r1 : Rep m (P.aux E1) E1 := h.aux h1.1 h1.2.1 h1.2.2
    dsimp only
    by_cases c : lp = true
    · rw [if_pos c, if_pos c]
      exact ⟨rfl, r1, rfl, List.Perm.refl _, rfl⟩
    rw [if_neg c, if_neg c]
    refine (zorich_sim O r1 s).bind ?_
    rintro ⟨f, E2, s2⟩ ⟨f', P2, s2'⟩ h2
    have h2' := h2
    obtain ⟨a1, a2, a3, a4, a5⟩ := h2
    dsimp only at a1 a2 a3 a4 a5 ⊢
    subst a1 a3
    have hb : SameNodes m P (f, E2, s2) (f, P2, s2) := h2'.trans (List.Perm.refl _) rfl
    by_cases c2 : f = true
    · rw [if_pos c2, if_pos c2]
      exact ⟨rfl, hb.2⟩
    rw [if_neg c2, if_neg c2]
    refine (zorich_sim O a2.swap s2).bind ?_
    rintro ⟨g, E3, s3⟩ ⟨g', P3, s3'⟩ h3
    have hsw : SameNodes m P (f, E2.swap, s2) (f, P2.swap, s2) := hb.swap
    have h3' : SameNodes m P (g, E3, s3) (g', P3, s3') := h3.trans hsw.2.2.2.1 hsw.2.2.2.2
    have h4 : SameNodes m P (IET.LoopEnd.found, E3.swap, s3) (IET.LoopEnd.found, P3.swap, s3') := h3'.swap
    obtain ⟨b1, b2, b3, b4, b5⟩ := h3
    dsimp only at b1 b2 b3 b4 b5 ⊢
    subst b1 b3
    by_cases c3 : g = true
    · rw [if_pos c3, if_pos c3]; exact h4
    rw [if_neg c3, if_neg c3]
    exact (induceLoop_sim O z n b2.swap s3).mono (fun x y hxy => hxy.trans h4.2.2.2.1 h4.2.2.2.2)

theorem inducePhase_sim (O : LengthsOps σ T) (fuel : ℕ) (limit : ℤ) {m : Mem} {P : PIET T} {E : IET T} (h : Rep m P E) (s : σ) :
    RelM (SameNodes m P) (E.inducePhase O fuel limit s) (P.inducePhase m O fuel limit s) := by
  unfold IET.inducePhase PIET.inducePhase
  by_cases c : limit = 0
  · rw [if_pos c, if_pos c]; exact ⟨rfl, h, rfl, List.Perm.refl _, rfl⟩
  rw [if_neg c, if_neg c, h.view, ok_bind]
  refine RelM.refl_bind ?_
  rintro ⟨z, E1⟩ e1
  have h1 := IET.saf0_same O e1
  have r1 : Rep m (P.aux E1) E1 := h.aux h1.1 h1.2.1 h1.2.2
  dsimp only
  have key : ∀ n, RelM (SameNodes m P) (E1.induceLoop O z n s) ((P.aux E1).induceLoop m O z n s) := fun n =>
    (induceLoop_sim O z n r1 s).mono (fun x y hxy => hxy.trans (List.Perm.refl _) rfl)
  by_cases c2 : limit = -1
  · rw [if_pos c2, if_pos c2]
    refine (key fuel).bind ?_
    rintro x y hxy
    rw [hxy.1]
    by_cases c3 : y.1 = .exhausted
    · rw [if_pos c3, if_pos c3]; exact rfl
    · rw [if_neg c3, if_neg c3]; exact hxy
  · rw [if_neg c2, if_neg c2]; exact key _

/-- How the result of `induce` is represented. -/
def StepRel (m : Mem) (P : PIET T) (x : InductionStep T) (E : IET T) (y : PStep T) (P' : PIET T) (m' : Mem) : Prop :=
  x.result = y.result ∧ x.connection = y.connection ∧ SplitRel m P x.additional E y.additional P' m'

theorem induceFinish_sim (L : PPL) (O : LengthsOps σ T) (found : Bool) {m : Mem} {P : PIET T} {E : IET T} (h : Rep m P E) (hm : m.Ok)
    (hs : P.top.length ≠ 1) (s : σ) :
    RelM (fun x y => StepRel m P x.1 x.2 y.1 y.2.1 y.2.2) (E.induceFinish L O found s) (P.induceFinish L O found s m) := by
  unfold IET.induceFinish PIET.induceFinish
  refine (reduce_sim O h hm s).bind ?_
  rintro ⟨R, E1⟩ ⟨R', P1, m1⟩ ⟨hsplit, hnone⟩
  dsimp only at hsplit hnone ⊢
  cases R' with
  | some R' =>
    have hreps := hsplit.reps
    cases R with
    | none => simp at hreps
    | some R =>
      dsimp only
      have eb : E1.bottom.getLast? = P1.bottom.getLast?.map m1.lab := by rw [← hsplit.rep.bottom, List.getLast?_map]
      have et : E1.top.getLast? = P1.top.getLast?.map m1.lab := by rw [← hsplit.rep.top, List.getLast?_map]
      rw [eb, et]
      cases hb : P1.bottom.getLast? with
      | none => exact rfl
      | some b =>
        cases ht : P1.top.getLast? with
        | none => exact rfl
        | some t =>
          simp only [Option.map_some]
          rw [Mem.label_ok (hsplit.rep.linked.live' (List.mem_of_getLast? hb)), ok_bind,
            Mem.label_ok (hsplit.rep.linked.live (List.mem_of_getLast? ht)), ok_bind]
          exact ⟨rfl, rfl, hsplit⟩
  | none =>
    have hreps := hsplit.reps
    cases R with
    | some R => simp at hreps
    | none =>
      obtain ⟨rfl, rfl, hred⟩ := hnone rfl
      dsimp only
      have hrep := hsplit.rep
      have lt : E.top.length = P1.top.length := by rw [← h.top]; simp
      rw [← hrep.top, ← hrep.bottom]
      rcases hT : P1.top with _ | ⟨t, top⟩
      · exact rfl
      rcases hB : P1.bottom with _ | ⟨b, bottom⟩
      · exact rfl
      simp only [List.map_cons]
      have hne : m1.lab t ≠ m1.lab b := by
        intro e
        have hn : E.top.Nodup := h.top ▸ h.linked.nodup
        have hp : E.bottom.Perm E.top := h.top ▸ h.bottom ▸ h.linked.perm
        have hne : E.top ≠ [] := by rw [← h.top, hT]; simp
        obtain ⟨k', e1, e2, e3, e4, e5⟩ := reduceLoop_spec₀ hn hp hne
        rw [hred] at e1
        obtain rfl := Except.ok.inj e1
        have hl : 1 < E.top.length := by
          have h1 : 0 < E.top.length := List.length_pos_of_ne_nil hne
          have h2 : E.top.length ≠ 1 := by rw [lt]; exact hs
          omega
        refine e5 1 one_pos hl ?_
        rw [← h.top, ← h.bottom, hT, hB]
        simp [e]
      obtain ⟨n, n', P', m', g1, g2, g3, g4, g5, g6, g7⟩ := merge_sim hrep hm hT hB hne
      rw [g1, ok_bind, g2, ok_bind, g3, g4]
      refine RelM.refl_bind ?_
      intro c _
      by_cases c0 : c = 0
      · rw [if_pos c0, if_pos c0]
        rw [hT, hB] at *
        rw [g5, ok_bind]
        exact ⟨rfl, rfl, SplitRel.none g6 g7⟩
      · rw [if_neg c0, if_neg c0]
        refine RelM.refl_bind fun _ _ => ?_
        have ev : P1.view m1 = .ok E1 := hrep.view
        rw [ev, ok_bind]
        refine RelM.refl_bind ?_
        rintro ⟨bo, E2⟩ e2
        have h2 := IET.bosh_same L O e2
        have r2 : Rep m1 (P1.aux E2) E2 := hrep.aux h2.1 h2.2.1 h2.2.2
        have hf : SplitRel m1 P1 none E2 none (P1.aux E2) m1 := SplitRel.none r2 (Frame.refl hm (fun _ ha => ha))
        dsimp only
        by_cases c1 : bo = true
        · rw [if_pos c1, if_pos c1]; exact ⟨rfl, rfl, hf⟩
        · rw [if_neg c1, if_neg c1]; exact ⟨rfl, rfl, hf⟩

theorem SplitRel.of_perm {m m' : Mem} {P P1 P' : PIET T} {R : Option (IET T)} {E : IET T} {R' : Option (PIET T)}
    (h : SplitRel m P1 R E R' P' m') (hp : (P1.top ++ P1.bottom).Perm (P.top ++ P.bottom)) : SplitRel m P R E R' P' m' :=
  ⟨h.rep, h.reps, h.disj, h.frame.perm (fun a => hp.mem_iff) (fun _ ha => ha)⟩

theorem induce_sim (L : PPL) (O : LengthsOps σ T) (fuel : ℕ) (limit : ℤ) {m : Mem} {P : PIET T} {E : IET T} (h : Rep m P E) (hm : m.Ok) (s : σ) :
    RelM (fun x y => StepRel m P x.1 x.2.1 y.1 y.2.1 y.2.2.2 ∧ x.2.2 = y.2.2.1) (E.induce L O fuel limit s) (P.induce L O fuel limit s m) := by
  unfold IET.induce PIET.induce
  have lt : E.size = P.size := by
    show E.top.length = P.top.length
    rw [← h.top]; simp
  have hf : Frame m m P.nodes P.nodes := Frame.refl hm (fun _ ha => ha)
  by_cases c : P.size = 1
  · rw [if_pos c, if_pos (lt.trans c)]
    exact ⟨⟨rfl, rfl, SplitRel.none h hf⟩, rfl⟩
  rw [if_neg c, if_neg (fun e => c (lt.symm.trans e))]
  refine (inducePhase_sim O fuel limit h s).bind ?_
  rintro ⟨f, E2, s2⟩ ⟨f', P2, s2'⟩ ⟨a1, a2, a3, a4, a5⟩
  dsimp only at a1 a2 a3 a4 a5 ⊢
  subst a1 a3
  have hf2 : Frame m m P.nodes P2.nodes := Frame.refl hm (fun _ ha => a4.mem_iff.1 ha)
  by_cases c2 : f = .autoSimilar
  · rw [if_pos c2, if_pos c2]
    exact ⟨⟨rfl, rfl, SplitRel.none a2 hf2⟩, rfl⟩
  rw [if_neg c2, if_neg c2]
  refine (induceFinish_sim L O _ a2 hm (by rw [a5]; exact c) s2).bind ?_
  rintro ⟨st, E3⟩ ⟨st', P3, m3⟩ ⟨g1, g2, g3⟩
  exact ⟨⟨g1, g2, g3.of_perm a4⟩, rfl⟩

/-! ### Histories -/

/-- The nodes represent the IETs, different IETs have different nodes. -/
structure RepWorld (w : World σ T) (pw : PWorld σ T) : Prop where
  ok : pw.mem.Ok
  lengths : w.lengths = pw.lengths
  reps : List.Forall₂ (fun P E => Rep pw.mem P E) pw.pieces w.pieces
  disj : pw.pieces.Pairwise (fun P Q => ∀ a ∈ P.nodes, a ∉ Q.nodes)

theorem call_sim (L : PPL) (O : LengthsOps σ T) (fuel : ℕ) (op : Op) {m : Mem} {P : PIET T} {E : IET T} (h : Rep m P E) (hm : m.Ok) (s : σ) :
    RelM (fun x y => ∃ R R', x.1 = R.toList ∧ y.1 = R'.toList ∧ SplitRel m P R x.2.1 R' y.2.1 y.2.2.2 ∧ x.2.2 = y.2.2.1)
      (op.call L O fuel E s) (op.pcall L O fuel P s m) := by
  have hf : Frame m m P.nodes P.nodes := Frame.refl hm (fun _ ha => ha)
  cases op with
  | zorichInduction i =>
    refine (zorich_sim O h s).bind ?_
    rintro ⟨f, E2, s2⟩ ⟨f', P2, s2'⟩ ⟨a1, a2, a3, a4, a5⟩
    exact ⟨none, none, rfl, rfl, SplitRel.none a2 (Frame.refl hm (fun _ ha => a4.mem_iff.1 ha)), a3⟩
  | swap i =>
    exact ⟨none, none, rfl, rfl, SplitRel.none h.swap (Frame.refl hm (fun a ha => by
      simp only [PIET.nodes, PIET.swap, List.mem_append] at ha ⊢; tauto)), rfl⟩
  | reduce i =>
    refine (reduce_sim O h hm s).bind ?_
    rintro ⟨R, E1⟩ ⟨R', P1, m1⟩ ⟨h1, _⟩
    exact ⟨R, R', rfl, rfl, h1, rfl⟩
  | induce i limit =>
    refine (induce_sim L O fuel limit h hm s).bind ?_
    rintro ⟨st, E1, s1⟩ ⟨st', P1, s1', m1⟩ ⟨⟨_, _, h1⟩, h2⟩
    exact ⟨_, _, rfl, rfl, h1, h2⟩
  | safInvariant i =>
    simp only [Op.call, Op.pcall]
    rw [h.view, ok_bind]
    refine RelM.refl_bind ?_
    rintro ⟨v, E1⟩ e1
    have h1 := IET.safInvariant_same O e1
    exact ⟨none, none, rfl, rfl, SplitRel.none (h.aux h1.1 h1.2.1 h1.2.2) hf, rfl⟩
  | boshernitzanNoPeriodicTrajectory i =>
    simp only [Op.call, Op.pcall]
    rw [h.view, ok_bind]
    refine RelM.refl_bind ?_
    rintro ⟨v, E1⟩ e1
    have h1 := IET.bosh_same L O e1
    exact ⟨none, none, rfl, rfl, SplitRel.none (h.aux h1.1 h1.2.1 h1.2.2) hf, rfl⟩

theorem forall₂_set_of {α β : Type} {R S : α → β → Prop} : ∀ {l : List α} {l' : List β} (i : ℕ) {x : α} {y : β}, List.Forall₂ R l l' →
    (∀ (j : ℕ) (a : α) (b : β), j ≠ i → l[j]? = some a → R a b → S a b) → S x y → List.Forall₂ S (l.set i x) (l'.set i y)
  | [], [], _, _, _, _, _, _ => by simp
  | a :: l, b :: l', 0, x, y, h, h1, h2 => by
    obtain ⟨_, ht⟩ := List.forall₂_cons.1 h
    simp only [List.set_cons_zero]
    refine List.Forall₂.cons h2 ?_
    have := forall₂_set_of (S := S) (l.length) (x := x) (y := y) ht (fun j a' b' hj ha hr => h1 (j + 1) a' b' (by simp) (by simpa using ha) hr) h2
    rw [List.set_eq_of_length_le (le_refl _), List.set_eq_of_length_le (ht.length_eq ▸ le_refl _)] at this
    exact this
  | a :: l, b :: l', i + 1, x, y, h, h1, h2 => by
    obtain ⟨hh, ht⟩ := List.forall₂_cons.1 h
    simp only [List.set_cons_succ]
    refine List.Forall₂.cons (h1 0 a b (by simp) rfl hh) ?_
    exact forall₂_set_of i ht (fun j a' b' hj ha hr => h1 (j + 1) a' b' (by omega) (by simpa using ha) hr) h2

theorem exec_rep (L : PPL) (O : LengthsOps σ T) (fuel : ℕ) (op : Op) {w : World σ T} {pw : PWorld σ T} (h : RepWorld w pw) :
    RelM RepWorld (op.exec L O fuel w) (op.pexec L O fuel pw) := by
  unfold Op.exec Op.pexec
  rcases hP : pw.pieces[op.index]? with _ | P
  · have : w.pieces[op.index]? = none := by
      rw [List.getElem?_eq_none_iff] at hP ⊢
      rw [← h.reps.length_eq]; exact hP
    rw [this]; exact h
  · have hi : op.index < pw.pieces.length := (List.getElem?_eq_some_iff.1 hP).1
    obtain ⟨E, hE⟩ : ∃ E, w.pieces[op.index]? = some E := by
      rw [h.reps.length_eq] at hi
      exact ⟨_, List.getElem?_eq_getElem hi⟩
    rw [hE]
    dsimp only
    have hrep : Rep pw.mem P E := by
      have := h.reps.get hi (h.reps.length_eq ▸ hi)
      rw [List.getElem?_eq_some_iff] at hP hE
      obtain ⟨_, hP⟩ := hP
      obtain ⟨_, hE⟩ := hE
      simpa [hP, hE] using this
    rw [h.lengths]
    refine (call_sim L O fuel op hrep h.ok pw.lengths).bind ?_
    rintro ⟨new, E', s'⟩ ⟨new', P', t', m'⟩ ⟨R, R', rfl, rfl, hs, hl⟩
    dsimp only at hs hl ⊢
    have lt : ∀ Q ∈ pw.pieces, ∀ a ∈ Q.nodes, a < pw.mem.next := by
      intro Q hQ a ha
      have hQ' : ∃ F, Rep pw.mem Q F := by
        obtain ⟨j, hj, rfl⟩ := List.getElem_of_mem hQ
        exact ⟨_, h.reps.get hj (h.reps.length_eq ▸ hj)⟩
      obtain ⟨F, hF⟩ := hQ'
      have hlive : pw.mem.Live a := by
        rcases List.mem_append.1 ha with h1 | h1
        · exact hF.linked.live h1
        · exact hF.linked.live' h1
      obtain ⟨n, hn⟩ := hlive
      by_contra hc
      rw [h.ok a (by omega)] at hn
      exact absurd hn (by simp)
    have hsymm : ∀ P Q : PIET T, (∀ a ∈ P.nodes, a ∉ Q.nodes) → ∀ a ∈ Q.nodes, a ∉ P.nodes := fun P Q h1 a h2 h3 => h1 a h3 h2
    have hother : ∀ (j : ℕ) Q, j ≠ op.index → pw.pieces[j]? = some Q → ∀ a ∈ Q.nodes, a < pw.mem.next ∧ a ∉ P.nodes := by
      intro j Q hj hQ a ha
      refine ⟨lt Q (List.mem_of_getElem? hQ) a ha, ?_⟩
      exact pairwise_getElem_ne hsymm h.disj hQ hP hj a ha
    have hnew : ∀ (j : ℕ) Q, j ≠ op.index → pw.pieces[j]? = some Q → ∀ a ∈ Q.nodes, a ∉ P'.nodes ++ R'.toList.flatMap PIET.nodes := by
      intro j Q hj hQ a ha hc
      have h1 := hother j Q hj hQ a ha
      rcases hs.frame.sub a hc with h2 | h2
      · exact h1.2 h2
      · omega
    refine ⟨hs.frame.ok, hl, ?_, ?_⟩
    · refine List.rel_append ?_ hs.reps
      refine forall₂_set_of op.index h.reps ?_ hs.rep
      intro j Q F hj hQ hQF
      exact hQF.frame (fun a ha => hs.frame.same a (hother j Q hj hQ a ha).1 (hother j Q hj hQ a ha).2)
    · rw [List.pairwise_append]
      refine ⟨?_, ?_, ?_⟩
      · rw [List.pairwise_iff_getElem]
        intro i j hi hj hij a ha hb
        simp only [List.length_set] at hi hj
        rw [List.getElem_set] at ha hb
        by_cases ci : op.index = i
        · rw [if_pos ci] at ha
          have cj : op.index ≠ j := by omega
          rw [if_neg cj] at hb
          exact hnew j _ (Ne.symm cj) (List.getElem?_eq_getElem hj) a hb (List.mem_append_left _ ha)
        · rw [if_neg ci] at ha
          by_cases cj : op.index = j
          · rw [if_pos cj] at hb
            exact hnew i _ (Ne.symm ci) (List.getElem?_eq_getElem hi) a ha (List.mem_append_left _ hb)
          · rw [if_neg cj] at hb
            exact List.pairwise_iff_getElem.1 h.disj i j hi hj hij a ha hb
      · cases R' with
        | none => simp
        | some R' => simp
      · intro Q hQ F hF a ha hb
        have hmem : a ∈ P'.nodes ++ R'.toList.flatMap PIET.nodes :=
          List.mem_append_right _ (List.mem_flatMap.2 ⟨F, hF, hb⟩)
        rcases mem_set_iff_ne hQ with rfl | ⟨j, hj, hQ⟩
        · exact hs.disj F (by simpa using hF) a hb ha
        · exact hnew j Q hj hQ a ha hmem

end Verif
