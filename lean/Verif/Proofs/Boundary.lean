import Verif.Proofs.Decompose

/-!
# Proofs about the boundary of components
-/

namespace Verif

set_option linter.unusedSectionVars false
set_option linter.unusedSimpArgs false

variable {σ T ε : Type} [CommRing T] [LinearOrder T] [IsStrictOrderedRing T] {O : LengthsOps σ T} {d : ℕ} {c : T →+ (Fin d → ℚ)}
  {P : Type} [CommRing P] [LinearOrder P] [IsStrictOrderedRing P]

/-! ### Lists -/

theorem filter_key {α κ : Type} [DecidableEq κ] (f : α → κ) (v : κ) : ∀ {l : List α}, (l.map f).Nodup →
    l.filter (fun x => f x = v) = [] ∨ ∃ x, f x = v ∧ l.filter (fun x => f x = v) = [x]
  | [], _ => .inl rfl
  | x :: l, h => by
    rw [List.map_cons, List.nodup_cons] at h
    by_cases hx : f x = v
    · right
      refine ⟨x, hx, ?_⟩
      rw [List.filter_cons, if_pos (by simpa using hx)]
      congr 1
      rw [List.filter_eq_nil_iff]
      intro y hy
      simp only [decide_eq_true_eq]
      intro e
      exact h.1 (List.mem_map.mpr ⟨y, hy, e.trans hx.symm⟩)
    · rw [List.filter_cons, if_neg (by simpa using hx)]
      exact filter_key f v h.2

theorem forM_ok {α : Type} {f : α → M Unit} : ∀ {l : List α}, (∀ x ∈ l, f x = .ok ()) → l.forM f = .ok ()
  | [], _ => rfl
  | x :: l, h => by
    have h1 := h x List.mem_cons_self
    have h2 := forM_ok (l := l) (fun y hy => h y (List.mem_cons_of_mem _ hy))
    show (f x >>= fun _ => l.forM f) = _
    rw [h1]
    exact h2

theorem mapM_ok {α β : Type} {f : α → M β} {g : α → β} : ∀ {l : List α}, (∀ x ∈ l, f x = .ok (g x)) → l.mapM f = .ok (l.map g)
  | [], _ => rfl
  | x :: l, h => by
    have h1 := h x List.mem_cons_self
    have h2 := mapM_ok (l := l) (fun y hy => h y (List.mem_cons_of_mem _ hy))
    simp only [List.mapM_cons, h1, h2, bind, Except.bind, pure, Except.pure, List.map_cons]

/-! ### Separatrices -/

/-- The connections at a separatrix. -/
def atSep (s : Sep) (c : Conn) : List Conn := (if c.source = s then [c] else []) ++ (if c.target = s then [c] else [])

theorem checkSeparatrices_ok {R all : List Conn} (hR : ∀ c ∈ R, c.source.parallel = true ∧ c.target.parallel = false)
    (hs : (R.map (fun c => c.source.label)).Nodup) (ht : (R.map (fun c => c.target.label)).Nodup)
    (h : all.Perm (R ++ R.map Conn.neg)) : Decomp.checkSeparatrices all = .ok () := by
  have key : ∀ s : Sep, all.flatMap (atSep s) = [] ∨ ∃ c : Conn, (all.flatMap (atSep s)).Perm [c, c.neg] := by
    intro s
    have hp := h.flatMap_right (atSep s)
    rw [List.flatMap_append] at hp
    cases hsp : s.parallel with
    | true =>
      have e1 : R.flatMap (atSep s) = R.filter (fun c => c.source.label = s.label) := by
        clear h hp hs ht
        induction R with
        | nil => rfl
        | cons x R ih =>
          rw [List.flatMap_cons, List.filter_cons, ih (fun c hc => hR c (List.mem_cons_of_mem _ hc))]
          obtain ⟨h1, h2⟩ := hR x List.mem_cons_self
          have n1 : x.target ≠ s := by rintro rfl; rw [h2] at hsp; cases hsp
          have n2 : x.source = s ↔ x.source.label = s.label := ⟨fun e => by rw [e], fun e => by
            rcases x with ⟨⟨a, p⟩, t⟩; rcases s with ⟨b, q⟩; simp only at h1 hsp e; rw [h1, e, hsp]⟩
          by_cases hx : x.source.label = s.label
          · simp [atSep, n1, n2, hx]
          · simp [atSep, n1, n2, hx]
      have e2 : (R.map Conn.neg).flatMap (atSep s) = (R.filter (fun c => c.source.label = s.label)).map Conn.neg := by
        clear h hp hs ht e1
        induction R with
        | nil => rfl
        | cons x R ih =>
          rw [List.map_cons, List.flatMap_cons, List.filter_cons, ih (fun c hc => hR c (List.mem_cons_of_mem _ hc))]
          obtain ⟨h1, h2⟩ := hR x List.mem_cons_self
          have n1 : x.target ≠ s := by rintro rfl; rw [h2] at hsp; cases hsp
          have n2 : x.source = s ↔ x.source.label = s.label := ⟨fun e => by rw [e], fun e => by
            rcases x with ⟨⟨a, p⟩, t⟩; rcases s with ⟨b, q⟩; simp only at h1 hsp e; rw [h1, e, hsp]⟩
          by_cases hx : x.source.label = s.label
          · simp [atSep, Conn.neg, n1, n2, hx]
          · simp [atSep, Conn.neg, n1, n2, hx]
      rw [e1, e2] at hp
      rcases filter_key (fun c : Conn => c.source.label) s.label hs with e | ⟨x, _, e⟩
      · left; rw [e] at hp; simpa using hp
      · right; rw [e] at hp; exact ⟨x, hp⟩
    | false =>
      have e1 : R.flatMap (atSep s) = R.filter (fun c => c.target.label = s.label) := by
        clear h hp hs ht
        induction R with
        | nil => rfl
        | cons x R ih =>
          rw [List.flatMap_cons, List.filter_cons, ih (fun c hc => hR c (List.mem_cons_of_mem _ hc))]
          obtain ⟨h1, h2⟩ := hR x List.mem_cons_self
          have n1 : x.source ≠ s := by rintro rfl; rw [h1] at hsp; cases hsp
          have n2 : x.target = s ↔ x.target.label = s.label := ⟨fun e => by rw [e], fun e => by
            rcases x with ⟨t, ⟨a, p⟩⟩; rcases s with ⟨b, q⟩; simp only at h2 hsp e; rw [h2, e, hsp]⟩
          by_cases hx : x.target.label = s.label
          · simp [atSep, n1, n2, hx]
          · simp [atSep, n1, n2, hx]
      have e2 : (R.map Conn.neg).flatMap (atSep s) = (R.filter (fun c => c.target.label = s.label)).map Conn.neg := by
        clear h hp hs ht e1
        induction R with
        | nil => rfl
        | cons x R ih =>
          rw [List.map_cons, List.flatMap_cons, List.filter_cons, ih (fun c hc => hR c (List.mem_cons_of_mem _ hc))]
          obtain ⟨h1, h2⟩ := hR x List.mem_cons_self
          have n1 : x.source ≠ s := by rintro rfl; rw [h1] at hsp; cases hsp
          have n2 : x.target = s ↔ x.target.label = s.label := ⟨fun e => by rw [e], fun e => by
            rcases x with ⟨t, ⟨a, p⟩⟩; rcases s with ⟨b, q⟩; simp only at h2 hsp e; rw [h2, e, hsp]⟩
          by_cases hx : x.target.label = s.label
          · simp [atSep, Conn.neg, n1, n2, hx]
          · simp [atSep, Conn.neg, n1, n2, hx]
      rw [e1, e2] at hp
      rcases filter_key (fun c : Conn => c.target.label) s.label ht with e | ⟨x, _, e⟩
      · left; rw [e] at hp; simpa using hp
      · right; rw [e] at hp; exact ⟨x, hp⟩
  unfold Decomp.checkSeparatrices
  refine forM_ok (fun s _ => ?_)
  show (match all.flatMap (atSep s) with
    | [a, b] => assertM (a = b.neg)
    | [_] => .ok ()
    | [] => .ok ()
    | _ => .error .assertFailed) = .ok ()
  rcases key s with e | ⟨x, hx⟩
  · rw [e]
  · have hl := hx.length_eq
    match hm : all.flatMap (atSep s), hl with
    | [a, b], _ =>
      rw [hm] at hx
      have hab : a = b.neg := by
        have h1 : a = x ∨ a = x.neg := by simpa using hx.mem_iff.mp (List.mem_cons_self (a := a) (l := [b]))
        have hnn : x.neg.neg = x := rfl
        rcases h1 with rfl | rfl
        · rw [List.perm_cons, List.perm_singleton] at hx
          injection hx with hx
          rw [hx]; rfl
        · have := hx.trans (List.Perm.swap _ _ _)
          rw [List.perm_cons, List.perm_singleton] at this
          injection this with hx
          rw [hx]
      show (if decide (a = b.neg) = true then (.ok () : M Unit) else .error .assertFailed) = .ok ()
      rw [if_pos (decide_eq_true hab)]

/-! ### The connections of all half edges -/

/-- The connections left and right of a half edge, read directly from the map of connections. -/
def ConnMap.around (m : ConnMap) (h : HalfEdge) : List Conn :=
  if h.top then (m.val h.label).topLeft ++ (m.val h.label).topRight else (m.val h.label).bottomLeft ++ (m.val h.label).bottomRight

theorem flatMap_perm_congr {α β : Type} {f g : α → List β} : ∀ {l : List α}, (∀ x ∈ l, (f x).Perm (g x)) → (l.flatMap f).Perm (l.flatMap g)
  | [], _ => .refl _
  | x :: l, h => by
    rw [List.flatMap_cons, List.flatMap_cons]
    exact (h x List.mem_cons_self).append (flatMap_perm_congr (fun y hy => h y (List.mem_cons_of_mem _ hy)))

theorem flatMap_append_perm' {α β : Type} [DecidableEq β] (f g : α → List β) : ∀ l : List α, (l.flatMap (fun x => f x ++ g x)).Perm (l.flatMap f ++ l.flatMap g)
  | [] => .refl _
  | x :: l => by
    have := flatMap_append_perm' f g l
    rw [List.perm_iff_count] at *
    intro z
    have := this z
    simp only [List.flatMap_cons, List.count_append] at *
    omega

theorem flatMap_zipIdx {α β : Type} (f : α → List β) (l : List α) : l.zipIdx.flatMap (fun q => f q.1) = l.flatMap f := by
  have : l.flatMap f = (l.zipIdx.map Prod.fst).flatMap f := by rw [List.zipIdx_map_fst]
  rw [this, List.flatMap_map]

theorem halfEdges_around {D : Decomp σ T} (m : ConnMap) (hs : ∀ x ∈ D.comps, x.iet.swapped = false ∧ x.iet.bottom.Perm x.iet.top) :
    (D.halfEdges.flatMap m.around).Perm ((D.comps.flatMap (fun x => x.iet.top)).flatMap
      (fun l => leftOf (m.val l) ++ ((m.val l).topRight ++ (m.val l).bottomRight))) := by
  unfold Decomp.halfEdges
  rw [List.flatMap_assoc, List.flatMap_assoc]
  have key := flatMap_zipIdx (fun x : Comp T => x.iet.top.flatMap
    (fun l => leftOf (m.val l) ++ ((m.val l).topRight ++ (m.val l).bottomRight))) D.comps
  rw [← key]
  refine flatMap_perm_congr ?_
  rintro ⟨x, i⟩ hx
  obtain ⟨h1, h2⟩ := hs x (List.fst_mem_of_mem_zipIdx hx)
  simp only [Comp.topContour, Comp.bottomContour, h1, Bool.false_eq_true, if_false, List.flatMap_append, List.flatMap_map, ConnMap.around, if_true]
  refine List.Perm.trans ((h2.flatMap_right _).append_left _) ?_
  refine List.Perm.trans (flatMap_append_perm' (fun l => (m.val l).topLeft ++ (m.val l).topRight)
    (fun l => (m.val l).bottomLeft ++ (m.val l).bottomRight) x.iet.top).symm ?_
  refine flatMap_perm_congr (fun l _ => ?_)
  rw [List.perm_iff_count]
  intro z
  simp only [leftOf, List.count_append]
  omega

theorem perm_gone {Eτ : List Label} {L gone : List Label} (hn : Eτ.Nodup) (hp : (L ++ gone).Perm Eτ) {f : Label → List Conn}
    (hf : ∀ l, l ∉ L → f l = []) : (L.flatMap f).Perm (Eτ.flatMap f) := by
  refine List.Perm.trans ?_ (hp.flatMap_right f)
  rw [List.flatMap_append]
  have : gone.flatMap f = [] := by
    rw [List.flatMap_eq_nil_iff]
    intro l hl
    apply hf
    intro hl'
    exact (List.nodup_append.mp (hp.nodup_iff.mpr hn)).2.2 l hl' l hl rfl
  rw [this, List.append_nil]

/-! ### Horizontal contours -/

variable {D : Decomp σ T}

/-- The connections left of the first half edge. -/
def ConnMap.headLeft (m : ConnMap) (f : Conns → List Conn) (hs : List HalfEdge) : List Conn :=
  match hs with
  | [] => []
  | h :: _ => f (m.val h.label)

/-- The connections right of the last half edge. -/
def ConnMap.lastRight (m : ConnMap) (f : Conns → List Conn) (hs : List HalfEdge) : List Conn :=
  match hs.getLast? with
  | none => []
  | some h => f (m.val h.label)

theorem lastRight_cons {m : ConnMap} {f : Conns → List Conn} {h : HalfEdge} {hs : List HalfEdge} (hne : hs ≠ []) :
    m.lastRight f (h :: hs) = m.lastRight f hs := by
  unfold ConnMap.lastRight
  rw [List.getLast?_cons_of_ne_nil hne]

theorem filterMap_map_conn (l : List Conn) : (l.map Side.conn).filterMap Side.conn? = l ∧ (l.map Side.conn).filterMap Side.edge? = [] := by
  constructor
  · rw [List.filterMap_map]; exact List.filterMap_some
  · rw [List.filterMap_map, List.filterMap_eq_nil_iff]; intro _ _; rfl

theorem filterMap_comp_conn (l : List Conn) : l.filterMap (Side.conn? ∘ Side.conn) = l := List.filterMap_some

theorem filterMap_comp_conn' (l : List Conn) : l.filterMap (fun x => (Side.conn x).conn?) = l := List.filterMap_some

theorem filterMap_edge (h : HalfEdge) : [Side.edge h].filterMap Side.conn? = [] := rfl

theorem connections_ok {l : Label} (h : l ∈ D.lengths.conns.keys) : D.connections l = .ok (D.lengths.conns.val l) := by
  unfold Decomp.connections ConnMap.at'
  rw [if_pos h]

theorem horizontalTop_spec : ∀ (hs : List HalfEdge) (first : Bool), (∀ h ∈ hs, h.top = true ∧ h.label ∈ D.lengths.conns.keys) →
    ∃ r, D.horizontalTop first hs = .ok r ∧ r.filterMap Side.edge? = hs ∧
      (r.filterMap Side.conn? ++ ((if first then D.lengths.conns.headLeft Conns.topLeft hs else []) ++
        D.lengths.conns.lastRight Conns.topRight hs)).Perm (hs.flatMap D.lengths.conns.around)
  | [], first, _ => ⟨[], rfl, rfl, by cases first <;> exact .refl _⟩
  | h :: hs, first, hk => by
    obtain ⟨h1, h2⟩ := hk h List.mem_cons_self
    obtain ⟨r, e1, e2, e3⟩ := horizontalTop_spec hs false (fun g hg => hk g (List.mem_cons_of_mem _ hg))
    have hr : ∀ b : List Conn, (((b.map Side.conn).reverse).filterMap Side.conn?) = b.reverse ∧
        ((b.map Side.conn).reverse).filterMap Side.edge? = [] := by
      intro b
      rw [← List.map_reverse]
      exact filterMap_map_conn _
    refine ⟨_, by simp only [Decomp.horizontalTop, connections_ok h2, e1, bind, Except.bind, pure, Except.pure]; rfl, ?_, ?_⟩
    · simp only [List.filterMap_append, e2]
      by_cases hf : first = true <;> by_cases hn : hs = [] <;>
        simp [hf, hn, filterMap_map_conn, (hr _).1, (hr _).2, Side.edge?]
    · have har : D.lengths.conns.around h = (D.lengths.conns.val h.label).topLeft ++ (D.lengths.conns.val h.label).topRight := by
        simp [ConnMap.around, h1]
      rw [List.flatMap_cons, har]
      simp only [List.filterMap_append]
      rw [List.perm_iff_count] at *
      intro z
      have e3 := e3 z
      by_cases hf : first = true <;> by_cases hn : hs = []
      · subst hn
        simp [hf, filterMap_comp_conn, filterMap_comp_conn', filterMap_edge, (hr _).1, ConnMap.headLeft, ConnMap.lastRight, List.count_append] at e3 ⊢
        omega
      · simp [hf, hn, filterMap_comp_conn, filterMap_comp_conn', filterMap_edge, (hr _).1, ConnMap.headLeft, lastRight_cons hn, List.count_append] at e3 ⊢
        omega
      · subst hn
        simp [hf, filterMap_comp_conn, filterMap_comp_conn', filterMap_edge, (hr _).1, ConnMap.headLeft, ConnMap.lastRight, List.count_append] at e3 ⊢
        omega
      · simp [hf, hn, filterMap_comp_conn, filterMap_comp_conn', filterMap_edge, (hr _).1, ConnMap.headLeft, lastRight_cons hn, List.count_append] at e3 ⊢
        omega

theorem horizontalBottom_spec : ∀ (hs : List HalfEdge) (first : Bool), (∀ h ∈ hs, h.top = false ∧ h.label ∈ D.lengths.conns.keys) →
    ∃ r, D.horizontalBottom first hs = .ok r ∧ r.filterMap Side.edge? = hs ∧
      (r.filterMap Side.conn? ++ ((if first then D.lengths.conns.headLeft Conns.bottomLeft hs else []) ++
        D.lengths.conns.lastRight Conns.bottomRight hs)).Perm (hs.flatMap D.lengths.conns.around)
  | [], first, _ => ⟨[], rfl, rfl, by cases first <;> exact .refl _⟩
  | h :: hs, first, hk => by
    obtain ⟨h1, h2⟩ := hk h List.mem_cons_self
    obtain ⟨r, e1, e2, e3⟩ := horizontalBottom_spec hs false (fun g hg => hk g (List.mem_cons_of_mem _ hg))
    have hr : ∀ b : List Conn, (((b.map Side.conn).reverse).filterMap Side.conn?) = b.reverse ∧
        ((b.map Side.conn).reverse).filterMap Side.edge? = [] := by
      intro b
      rw [← List.map_reverse]
      exact filterMap_map_conn _
    refine ⟨_, by simp only [Decomp.horizontalBottom, connections_ok h2, e1, bind, Except.bind, pure, Except.pure]; rfl, ?_, ?_⟩
    · simp only [List.filterMap_append, e2]
      by_cases hf : first = true <;> by_cases hn : hs = [] <;>
        simp [hf, hn, filterMap_map_conn, (hr _).1, (hr _).2, Side.edge?]
    · have har : D.lengths.conns.around h = (D.lengths.conns.val h.label).bottomLeft ++ (D.lengths.conns.val h.label).bottomRight := by
        simp [ConnMap.around, h1]
      rw [List.flatMap_cons, har]
      simp only [List.filterMap_append]
      rw [List.perm_iff_count] at *
      intro z
      have e3 := e3 z
      by_cases hf : first = true <;> by_cases hn : hs = []
      · subst hn
        simp [hf, filterMap_comp_conn, filterMap_comp_conn', filterMap_edge, (hr _).1, ConnMap.headLeft, ConnMap.lastRight, List.count_append] at e3 ⊢
        omega
      · simp [hf, hn, filterMap_comp_conn, filterMap_comp_conn', filterMap_edge, (hr _).1, ConnMap.headLeft, lastRight_cons hn, List.count_append] at e3 ⊢
        omega
      · subst hn
        simp [hf, filterMap_comp_conn, filterMap_comp_conn', filterMap_edge, (hr _).1, ConnMap.headLeft, ConnMap.lastRight, List.count_append] at e3 ⊢
        omega
      · simp [hf, hn, filterMap_comp_conn, filterMap_comp_conn', filterMap_edge, (hr _).1, ConnMap.headLeft, lastRight_cons hn, List.count_append] at e3 ⊢
        omega

end Verif
