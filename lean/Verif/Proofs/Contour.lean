import Verif.Proofs.Track
import Verif.Proofs.Conclude
import Verif.SpecSurface

/-!
# The contours of components are closed
-/

namespace Verif

set_option linter.unusedSectionVars false

variable {top bottom : List Label} {lv : Label → Label}

theorem Turns.trans : ∀ {j k : ℕ} {x y z : Ray}, Turns top bottom j x y → Turns top bottom k y z → Turns top bottom (j + k) x z
  | 0, 0, _, _, _, h, h' => Eq.trans h h'
  | 0, k + 1, x, y, z, h, ⟨u, u', h1, h2, h3⟩ => by
    rw [Nat.zero_add]
    exact ⟨u, u', Eq.trans h h1, h2, h3⟩
  | j + 1, k, x, y, z, ⟨u, u', h1, h2, h3⟩, h' => by
    rw [Nat.succ_add]
    exact ⟨u, u', h1, h2, Turns.trans h3 h'⟩

theorem Turns.refl (x : Ray) : Turns top bottom 0 x x := rfl

theorem Turns.one {x y : Ray} (h : Clockwise top bottom x y) : Turns top bottom 1 x y := ⟨x, y, rfl, h, rfl⟩

theorem Turns.cast {j k : ℕ} {x y : Ray} (h : Turns top bottom j x y) (e : j = k) : Turns top bottom k x y := e ▸ h

theorem leftmost_idem (l : Label) : leftmost top bottom (leftmost top bottom l) = leftmost top bottom l := by
  unfold leftmost
  by_cases h : bottom.head? = some l
  · rw [if_pos h]
    by_cases h' : bottom.head? = some (top.head?.getD l)
    · rw [if_pos h']
      cases h2 : top.head? <;> rfl
    · rw [if_neg h']
  · rw [if_neg h, if_neg h]

theorem Turns.right {a b : Label} (h : leftmost top bottom a = leftmost top bottom b) : Turns top bottom 0 (.right a) (.right b) :=
  congrArg Ray.right h

theorem Turns.left {a b : Label} (h : rightmost top bottom a = rightmost top bottom b) : Turns top bottom 0 (.left a) (.left b) :=
  congrArg Ray.left h

theorem turns_leftUp {l : Label} (h : l ∈ bottom.dropLast) : Turns top bottom 1 (.left l) (.up l) := .one (.leftUp (succIn_infix h))

theorem turns_downLeft {l : Label} (h : l ∈ top.dropLast) : Turns top bottom 1 (.down l) (.left l) := .one (.downLeft (succIn_infix h))

theorem turns_upRight {l : Label} (h : l ∈ bottom.dropLast) : Turns top bottom 1 (.up l) (.right (afterBottom top bottom l)) :=
  (Turns.one (.upRight (succIn_infix h))).trans (.right (leftmost_idem _).symm)

theorem turns_rightDown {l : Label} (h : l ∈ top.dropLast) : Turns top bottom 1 (.right (afterTop top bottom l)) (.down l) :=
  (Turns.right (leftmost_idem _)).trans (Turns.one (.rightDown (succIn_infix h)))

/-! ### Lists of sides -/

/-- After the last side we get to the given ray, with a quarter turn exactly if that side is a connection. -/
def Ends (top bottom : List Label) (lv : Label → Label) (l : List Side) (r : Ray) : Prop :=
  ∀ x ∈ l.getLast?, Turns top bottom (if x.isEdge then 0 else 1) (x.arrives lv) r

/-- From the given ray we get to the first side, with a quarter turn exactly if that side is a connection. -/
def Starts (top bottom : List Label) (lv : Label → Label) (r : Ray) (l : List Side) : Prop :=
  ∀ x ∈ l.head?, Turns top bottom (if x.isEdge then 0 else 1) r (x.leaves lv)

/-- The sides follow each other. -/
abbrev Path (top bottom : List Label) (lv : Label → Label) (l : List Side) : Prop := List.IsChain (Follows top bottom lv) l

theorem follows_join {x y : Side} {r r' : Ray} {j : ℕ} (hx : Turns top bottom (if x.isEdge then 0 else 1) (x.arrives lv) r)
    (hy : Turns top bottom (if y.isEdge then 0 else 1) r' (y.leaves lv)) (h : Turns top bottom j r r') (hj : j ≤ 2) :
    Follows top bottom lv x y := by
  refine ⟨_, (hx.trans h).trans hy, ?_, ?_, ?_⟩
  · cases x.isEdge <;> cases y.isEdge <;> simp <;> omega
  · cases x.isEdge <;> cases y.isEdge <;> simp
  · cases x.isEdge <;> cases y.isEdge <;> simp <;> omega

theorem Path.append {l l' : List Side} {r r' : Ray} {j : ℕ} (h : Path top bottom lv l) (h' : Path top bottom lv l')
    (he : Ends top bottom lv l r) (hs : Starts top bottom lv r' l') (ht : Turns top bottom j r r') (hj : j ≤ 2) :
    Path top bottom lv (l ++ l') :=
  List.IsChain.append h h' (fun x hx y hy => follows_join (he x hx) (hs y hy) ht hj)

theorem Ends.append {l l' : List Side} {r : Ray} (h : Ends top bottom lv l' r) (hn : l' ≠ []) : Ends top bottom lv (l ++ l') r := by
  intro x hx
  rw [List.getLast?_append_of_ne_nil _ hn] at hx
  exact h x hx

theorem Starts.append {l l' : List Side} {r : Ray} (h : Starts top bottom lv r l) (hn : l ≠ []) : Starts top bottom lv r (l ++ l') := by
  intro x hx
  rw [List.head?_append_of_ne_nil _ hn] at hx
  exact h x hx

/-- All connections go up from the right of a bottom interval to the right of a top interval. -/
def UpConn (top bottom : List Label) (c : Conn) : Prop :=
  c.source.parallel = true ∧ c.target.parallel = false ∧ c.source.label ∈ bottom.dropLast ∧ c.target.label ∈ top.dropLast

theorem path_right : ∀ {l : Label} {cs : List Conn}, IsChain l cs → (∀ c ∈ cs, UpConn top bottom c) → Path top bottom lv (cs.map .conn)
  | _, [], _, _ => .nil
  | _, [_], _, _ => .singleton _
  | l, c :: c' :: cs, h, hu => by
    simp only [List.map_cons, List.isChain_cons_cons]
    refine ⟨?_, path_right h.2 (fun x hx => hu x (List.mem_cons_of_mem _ hx))⟩
    obtain ⟨_, h2, _, h4⟩ := hu c (by simp)
    obtain ⟨h1', _, h3', _⟩ := hu c' (by simp)
    have e : c'.source = ⟨c.target.label, true⟩ := h.2.1
    refine ⟨2, ?_, by omega, by omega, by omega⟩
    simp only [Side.arrives, Side.leaves, Sep.ray, h2, h1', Bool.false_eq_true, if_false, if_true]
    rw [e] at h3' ⊢
    exact (turns_downLeft h4).trans (turns_leftUp h3')

theorem ends_right {l : Label} : ∀ {cs : List Conn}, cs ≠ [] → IsChain l cs → (∀ c ∈ cs, UpConn top bottom c) →
    Ends top bottom lv (cs.map .conn) (.left (chainEnd l cs)) := by
  intro cs hn hc hu x hx
  obtain ⟨cs', c, rfl⟩ : ∃ cs' c, cs = cs' ++ [c] := ⟨_, _, (List.dropLast_append_getLast hn).symm⟩
  simp only [List.map_append, List.map_cons, List.map_nil, List.getLast?_append, List.getLast?_singleton, Option.some_or, Option.mem_def,
    Option.some.injEq] at hx
  subst hx
  obtain ⟨_, h2, _, h4⟩ := hu c (by simp)
  rw [chainEnd_append]
  simp only [Side.arrives, Sep.ray, h2, Side.isEdge, Bool.false_eq_true, if_false, chainEnd]
  exact turns_downLeft h4

theorem starts_right {l : Label} {cs : List Conn} (hc : IsChain l cs) (hu : ∀ c ∈ cs, UpConn top bottom c) :
    Starts top bottom lv (.left l) (cs.map .conn) := by
  intro x hx
  cases cs with
  | nil => cases hx
  | cons c cs =>
    simp only [List.map_cons, List.head?_cons, Option.mem_def, Option.some.injEq] at hx
    subst hx
    obtain ⟨h1, _, h3, _⟩ := hu c (by simp)
    have e : c.source = ⟨l, true⟩ := hc.1
    simp only [Side.leaves, Sep.ray, h1, Side.isEdge, Bool.false_eq_true, if_false, if_true]
    rw [e] at h3 ⊢
    exact turns_leftUp h3

/-- All connections go down. -/
def DownConn (top bottom : List Label) (c : Conn) : Prop := UpConn top bottom c.neg

theorem starts_left {z z' : Label} {cs : List Conn} (h : Up (afterBottom top bottom) (afterTop top bottom) z cs z')
    (hu : ∀ c ∈ cs, DownConn top bottom c) : Starts top bottom lv (.right z') (cs.map .conn).reverse := by
  intro x hx
  rcases List.eq_nil_or_concat cs with rfl | ⟨cs', c, rfl⟩
  · cases hx
  · simp only [List.concat_eq_append, List.map_append, List.map_cons, List.map_nil, List.reverse_append, List.reverse_cons, List.reverse_nil,
      List.nil_append, List.singleton_append, List.head?_cons, Option.mem_def, Option.some.injEq] at hx
    subst hx
    obtain ⟨_, h2, _, h4⟩ := hu c (by simp)
    rw [List.concat_eq_append] at h
    obtain ⟨w, _, hw⟩ := h.split
    have e : afterTop top bottom c.source.label = z' := hw.2
    simp only [Conn.neg] at h2 h4
    simp only [Side.leaves, Sep.ray, h2, Side.isEdge, Bool.false_eq_true, if_false]
    rw [← e]
    exact turns_rightDown h4

theorem ends_left {z z' : Label} {cs : List Conn} (h : Up (afterBottom top bottom) (afterTop top bottom) z cs z')
    (hu : ∀ c ∈ cs, DownConn top bottom c) : Ends top bottom lv (cs.map .conn).reverse (.right z) := by
  intro x hx
  cases cs with
  | nil => cases hx
  | cons c cs =>
    simp only [List.map_cons, List.reverse_cons, List.getLast?_append, List.getLast?_singleton, Option.some_or, Option.mem_def,
      Option.some.injEq] at hx
    subst hx
    obtain ⟨h1, _, h3, _⟩ := hu c (by simp)
    have e : afterBottom top bottom c.target.label = z := h.1
    simp only [Conn.neg] at h1 h3
    simp only [Side.arrives, Sep.ray, h1, Side.isEdge, Bool.false_eq_true, if_false, if_true]
    rw [← e]
    exact turns_upRight h3

theorem path_left {z z' : Label} : ∀ {cs : List Conn}, Up (afterBottom top bottom) (afterTop top bottom) z cs z' →
    (∀ c ∈ cs, DownConn top bottom c) → Path top bottom lv (cs.map .conn).reverse := by
  intro cs h hu
  induction cs generalizing z with
  | nil => exact .nil
  | cons c cs ih =>
    rw [List.map_cons, List.reverse_cons]
    have hu' := fun x hx => hu x (List.mem_cons_of_mem _ hx)
    have h1 : Up (afterBottom top bottom) (afterTop top bottom) z [c] (afterTop top bottom c.source.label) := ⟨h.1, rfl⟩
    exact (ih h.2 hu').append (.singleton _) (ends_left h.2 hu') (starts_left h1 (by simpa using hu c (by simp))) (Turns.refl _) (by omega)

/-! ### Half edges -/

/-- What we need to know about the connections. -/
structure ConnsOk (top bottom : List Label) (m : ConnMap) (l : Label) : Prop where
  chain : IsChain l (m.val l).bottomRight
  topRight : (m.val l).topRight = []
  right : ∀ c ∈ (m.val l).bottomRight, UpConn top bottom c
  topLeft : ∀ c ∈ (m.val l).topLeft, DownConn top bottom c
  bottomLeft : ∀ c ∈ (m.val l).bottomLeft, DownConn top bottom c

/-- The sides at a bottom half edge, except for the ones on its left. -/
def crossBottom' (m : ConnMap) (i : ℕ) (l : Label) : List Side := .edge ⟨i, l, false⟩ :: (m.val l).bottomRight.map .conn

variable {m : ConnMap} {i : ℕ} {l z : Label}

theorem crossBottom'_spec (h : ConnsOk top bottom m l) :
    Path top bottom lv (crossBottom' m i l) ∧ Starts top bottom lv (.right (lv l)) (crossBottom' m i l) ∧
    Ends top bottom lv (crossBottom' m i l) (.left (m.endOf l)) := by
  have hs : Starts top bottom lv (.right (lv l)) [.edge ⟨i, l, false⟩] := by
    intro x hx; cases hx; exact Turns.refl _
  have he : Ends top bottom lv [.edge ⟨i, l, false⟩] (.left l) := by
    intro x hx; cases hx; exact Turns.refl _
  refine ⟨?_, hs.append (l' := (m.val l).bottomRight.map .conn) (by simp), ?_⟩
  · exact Path.append (l := [.edge ⟨i, l, false⟩]) (.singleton _) (path_right h.chain h.right) he (starts_right h.chain h.right) (Turns.refl _) (by omega)
  · by_cases hn : (m.val l).bottomRight = []
    · unfold crossBottom' ConnMap.endOf
      rw [hn]
      exact he
    · exact (ends_right hn h.chain h.right).append (l := [.edge ⟨i, l, false⟩]) (by simpa using hn)

theorem crossBottom_spec (h : ConnsOk top bottom m l) (hz : Up (afterBottom top bottom) (afterTop top bottom) (lv l) (m.val l).bottomLeft z) :
    Path top bottom lv (Decomp.crossList m ⟨i, l, false⟩) ∧ Starts top bottom lv (.right z) (Decomp.crossList m ⟨i, l, false⟩) ∧
    Ends top bottom lv (Decomp.crossList m ⟨i, l, false⟩) (.left (m.endOf l)) := by
  obtain ⟨h1, h2, h3⟩ := crossBottom'_spec (lv := lv) (i := i) h
  have e : Decomp.crossList m ⟨i, l, false⟩ = ((m.val l).bottomLeft.map Side.conn).reverse ++ crossBottom' m i l := by
    simp [Decomp.crossList, crossBottom']
  rw [e]
  refine ⟨(path_left hz h.bottomLeft).append h1 (ends_left hz h.bottomLeft) h2 (Turns.refl _) (by omega), ?_, h3.append (by simp [crossBottom'])⟩
  by_cases hn : (m.val l).bottomLeft = []
  · rw [hn] at hz ⊢
    have hz : lv l = z := hz
    rw [← hz]
    exact h2
  · exact (starts_left hz h.bottomLeft).append (by simpa using hn)

theorem crossTop_spec (h : ConnsOk top bottom m l) (hz : Up (afterBottom top bottom) (afterTop top bottom) z (m.val l).topLeft (lv l)) :
    Path top bottom lv (Decomp.crossList m ⟨i, l, true⟩) ∧ Starts top bottom lv (.left l) (Decomp.crossList m ⟨i, l, true⟩) ∧
    Ends top bottom lv (Decomp.crossList m ⟨i, l, true⟩) (.right z) := by
  have hs : Starts top bottom lv (.left l) [.edge ⟨i, l, true⟩] := by
    intro x hx; cases hx; exact Turns.refl _
  have he : Ends top bottom lv [.edge ⟨i, l, true⟩] (.right (lv l)) := by
    intro x hx; cases hx; exact Turns.refl _
  have e : Decomp.crossList m ⟨i, l, true⟩ = [.edge ⟨i, l, true⟩] ++ ((m.val l).topLeft.map Side.conn).reverse := by
    simp [Decomp.crossList, h.topRight]
  rw [e]
  refine ⟨Path.append (.singleton _) (path_left hz h.topLeft) he (starts_left hz h.topLeft) (Turns.refl _) (by omega), hs.append (by simp), ?_⟩
  by_cases hn : (m.val l).topLeft = []
  · rw [hn] at hz ⊢
    have hz : z = lv l := hz
    rw [hz]
    exact he
  · exact (ends_left hz h.topLeft).append (by simpa using hn)

/-- The bottom of a component. -/
theorem bottom_path (m : ConnMap) (i : ℕ) {z : Label} : ∀ {bs : List Label} {y b : Label}, (∀ l ∈ bs, ConnsOk top bottom m l) →
    (∀ l ∈ bs.dropLast, m.endOf l ∈ bottom.dropLast) →
    List.IsChain (fun p y => Up (afterBottom top bottom) (afterTop top bottom) (lv y) (m.val y).bottomLeft (afterBottom top bottom (m.endOf p))) bs →
    bs.head? = some y → bs.getLast? = some b → Up (afterBottom top bottom) (afterTop top bottom) (lv y) (m.val y).bottomLeft z →
    Path top bottom lv (bs.flatMap (fun l => Decomp.crossList m ⟨i, l, false⟩)) ∧
    Starts top bottom lv (.right z) (bs.flatMap (fun l => Decomp.crossList m ⟨i, l, false⟩)) ∧
    Ends top bottom lv (bs.flatMap (fun l => Decomp.crossList m ⟨i, l, false⟩)) (.left (m.endOf b)) := by
  intro bs
  induction bs generalizing z with
  | nil => intro y b _ _ _ h; cases h
  | cons x bs ih =>
    intro y b hok hend hch hy hb hz
    simp only [List.head?_cons, Option.some.injEq] at hy
    subst hy
    obtain ⟨h1, h2, h3⟩ := crossBottom_spec (i := i) (hok x (by simp)) hz
    have hne : Decomp.crossList m ⟨i, x, false⟩ ≠ [] := by simp [Decomp.crossList]
    rw [List.flatMap_cons]
    cases bs with
    | nil =>
      simp only [List.getLast?_singleton, Option.some.injEq] at hb
      subst hb
      simp only [List.flatMap_nil, List.append_nil]
      exact ⟨h1, h2, h3⟩
    | cons x' bs =>
      rw [List.isChain_cons_cons] at hch
      rw [List.getLast?_cons_cons] at hb
      have he := hend x (by simp)
      obtain ⟨g1, g2, g3⟩ := ih (y := x') (b := b) (fun l hl => hok l (List.mem_cons_of_mem _ hl))
        (fun l hl => hend l (by rw [List.dropLast_cons_cons]; exact List.mem_cons_of_mem _ hl)) hch.2 rfl hb hch.1
      refine ⟨h1.append g1 h3 g2 ((turns_leftUp he).trans (turns_upRight he)) le_rfl, h2.append hne, g3.append ?_⟩
      simp [Decomp.crossList]

/-- The top of a component, from right to left. -/
theorem top_path (m : ConnMap) (i : ℕ) {z : Label} : ∀ {ts : List Label} {x t : Label}, (∀ l ∈ ts, ConnsOk top bottom m l) →
    (∀ l ∈ ts.dropLast, l ∈ top.dropLast) →
    List.IsChain (fun t x => Up (afterBottom top bottom) (afterTop top bottom) (afterTop top bottom t) (m.val x).topLeft (lv x)) ts →
    ts.head? = some x → ts.getLast? = some t → Up (afterBottom top bottom) (afterTop top bottom) z (m.val x).topLeft (lv x) →
    Path top bottom lv (ts.reverse.flatMap (fun l => Decomp.crossList m ⟨i, l, true⟩)) ∧
    Starts top bottom lv (.left t) (ts.reverse.flatMap (fun l => Decomp.crossList m ⟨i, l, true⟩)) ∧
    Ends top bottom lv (ts.reverse.flatMap (fun l => Decomp.crossList m ⟨i, l, true⟩)) (.right z) := by
  intro ts
  induction ts generalizing z with
  | nil => intro y b _ _ _ h; cases h
  | cons y ts ih =>
    intro x t hok hend hch hx ht hz
    simp only [List.head?_cons, Option.some.injEq] at hx
    subst hx
    obtain ⟨h1, h2, h3⟩ := crossTop_spec (i := i) (hok y (by simp)) hz
    have hne : Decomp.crossList m ⟨i, y, true⟩ ≠ [] := by simp [Decomp.crossList]
    rw [List.reverse_cons, List.flatMap_append, List.flatMap_cons, List.flatMap_nil, List.append_nil]
    cases ts with
    | nil =>
      simp only [List.getLast?_singleton, Option.some.injEq] at ht
      subst ht
      exact ⟨h1, h2, h3⟩
    | cons y' ts =>
      rw [List.isChain_cons_cons] at hch
      rw [List.getLast?_cons_cons] at ht
      have he := hend y (by simp)
      obtain ⟨g1, g2, g3⟩ := ih (x := y') (t := t) (fun l hl => hok l (List.mem_cons_of_mem _ hl))
        (fun l hl => hend l (by rw [List.dropLast_cons_cons]; exact List.mem_cons_of_mem _ hl)) hch.2 rfl ht hch.1
      refine ⟨g1.append h1 g3 h2 ((turns_rightDown he).trans (turns_downLeft he)) le_rfl, g2.append ?_, h3.append hne⟩
      simp [Decomp.crossList]

theorem contour_of_path {l : List Side} {r r' : Ray} {j : ℕ} (h : Path top bottom lv l) (he : Ends top bottom lv l r)
    (hs : Starts top bottom lv r' l) (ht : Turns top bottom j r r') (hj : j ≤ 2) : Contour top bottom lv l := by
  cases l with
  | nil => exact Cycle.Chain.nil _
  | cons x l =>
    unfold Contour
    rw [Cycle.chain_coe_cons, ← List.cons_append]
    refine List.IsChain.append h (.singleton _) ?_
    intro u hu v hv
    simp only [List.head?_cons, Option.mem_def, Option.some.injEq] at hv
    subst hv
    exact follows_join (he u hu) (hs x rfl) ht hj

/-- Walking around a component along all the sides at its half edges. -/
theorem ClosedIn.contour {bs ts : List Label} (h : ClosedIn top bottom m lv ts bs) (hbt : bs.Perm ts) (hne : ts ≠ []) (hok : ∀ l ∈ ts, ConnsOk top bottom m l)
    (hend : ∀ l ∈ bs.dropLast, m.endOf l ∈ bottom.dropLast) (hend' : ∀ l ∈ ts.dropLast, l ∈ top.dropLast) (i : ℕ) :
    Contour top bottom lv (bs.flatMap (fun l => Decomp.crossList m ⟨i, l, false⟩) ++ ts.reverse.flatMap (fun l => Decomp.crossList m ⟨i, l, true⟩)) := by
  have hne' : bs ≠ [] := fun e => hne (List.Perm.nil_eq (e ▸ hbt)).symm
  obtain ⟨y, hy⟩ : ∃ y, bs.head? = some y := ⟨_, List.head?_eq_some_head hne'⟩
  obtain ⟨b, hb⟩ : ∃ y, bs.getLast? = some y := ⟨_, List.getLast?_eq_some_getLast hne'⟩
  obtain ⟨x, hx⟩ : ∃ y, ts.head? = some y := ⟨_, List.head?_eq_some_head hne⟩
  obtain ⟨t, ht⟩ : ∃ y, ts.getLast? = some y := ⟨_, List.getLast?_eq_some_getLast hne⟩
  obtain ⟨z, hz1, hz2⟩ := (h.left y x hy hx).split
  obtain ⟨p1, p2, p3⟩ := bottom_path m i (fun l hl => hok l (hbt.mem_iff.mp hl)) hend h.botRow hy hb hz1
  obtain ⟨q1, q2, q3⟩ := top_path m i hok hend' h.topRow hx ht hz2
  have n1 : bs.flatMap (fun l => Decomp.crossList m ⟨i, l, false⟩) ≠ [] := by
    cases bs with
    | nil => exact absurd rfl hne'
    | cons u bs => simp [Decomp.crossList]
  have n2 : ts.reverse.flatMap (fun l => Decomp.crossList m ⟨i, l, true⟩) ≠ [] := by
    cases ts with
    | nil => exact absurd rfl hne
    | cons u ts => simp [Decomp.crossList]
  exact contour_of_path (p1.append q1 p3 q2 (Turns.left (h.right b t hb ht)) (by omega)) (q3.append n2) (p2.append n1) (Turns.refl _) (by omega)

/-! ### Invariants -/

section

variable {P : Type} [CommRing P] [LinearOrder P] [IsStrictOrderedRing P] {A₀ : AIET P} {pieces : List (P × AIET P)} {R : List Conn}

theorem Track.connsOk (h : Track A₀ pieces m R) (l : Label) : ConnsOk A₀.top A₀.bottom m l := by
  have hup : ∀ c ∈ R, UpConn A₀.top A₀.bottom c := fun c hc =>
    ⟨(h.shape c hc).1, (h.shape c hc).2, h.sources.mem_iff.mp (List.mem_append_right _ (List.mem_map.mpr ⟨c, hc, rfl⟩)),
      h.targets.mem_iff.mp (List.mem_append_right _ (List.mem_map.mpr ⟨c, hc, rfl⟩))⟩
  by_cases hl : l ∈ A₀.top
  · have hleft : ∀ c ∈ leftOf (m.val l), DownConn A₀.top A₀.bottom c := by
      intro c hc
      obtain ⟨c', hc', rfl⟩ := List.mem_map.mp (h.left.mem_iff.mp (List.mem_flatMap.mpr ⟨l, hl, hc⟩))
      exact hup c' hc'
    exact ⟨h.chain l, h.topRight l, fun c hc => hup c (h.right.mem_iff.mp (List.mem_flatMap.mpr ⟨l, hl, hc⟩)),
      fun c hc => hleft c (List.mem_append_left _ hc), fun c hc => hleft c (List.mem_append_right _ hc)⟩
  · have := h.gone l (fun p hp hl' => hl (h.mem p hp l hl'))
    refine ⟨h.chain l, h.topRight l, ?_, ?_, ?_⟩ <;> simp [this]

theorem Track.contour (h : Track A₀ pieces m R) {p : P × AIET P} (hp : p ∈ pieces) (hc : ClosedIn A₀.top A₀.bottom m lv p.2.top p.2.bottom) (i : ℕ) :
    Contour A₀.top A₀.bottom lv (p.2.bottom.flatMap (fun l => Decomp.crossList m ⟨i, l, false⟩) ++
      p.2.top.reverse.flatMap (fun l => Decomp.crossList m ⟨i, l, true⟩)) := by
  have hv := h.cover.valid p hp
  refine hc.contour hv.perm hv.ne_nil (fun l _ => h.connsOk l) (fun l hl => ?_) (fun l hl => ?_) i
  · exact h.sources.mem_iff.mp (List.mem_append_left _ (List.mem_flatMap.mpr ⟨p, hp, List.mem_map_of_mem hl⟩))
  · exact h.targets.mem_iff.mp (List.mem_append_left _ (List.mem_flatMap.mpr ⟨p, hp, hl⟩))

/-- The connection on the left of a component, from the first bottom interval to the first top interval, and the sides at these
two half edges. -/
theorem Track.loop (h : Track A₀ pieces m R) {p : P × AIET P} (hp : p ∈ pieces) (hc : ClosedIn A₀.top A₀.bottom m lv p.2.top p.2.bottom) (i : ℕ)
    {b t : Label} (hb : p.2.bottom.head? = some b) (ht : p.2.top.head? = some t) (hb' : b ∈ p.2.bottom.dropLast) (ht' : t ∈ p.2.top.dropLast) :
    Contour A₀.top A₀.bottom lv (.conn ⟨⟨m.endOf b, true⟩, ⟨t, false⟩⟩ ::
      (Decomp.crossList m ⟨i, t, true⟩ ++ Decomp.crossList m ⟨i, b, false⟩)) := by
  obtain ⟨z, hz1, hz2⟩ := (hc.left b t hb ht).split
  obtain ⟨p1, p2, p3⟩ := crossBottom_spec (lv := lv) (i := i) (h.connsOk b) hz1
  obtain ⟨q1, q2, q3⟩ := crossTop_spec (lv := lv) (i := i) (h.connsOk t) hz2
  have n1 : Decomp.crossList m ⟨i, b, false⟩ ≠ [] := by simp [Decomp.crossList]
  have n2 : Decomp.crossList m ⟨i, t, true⟩ ≠ [] := by simp [Decomp.crossList]
  have hb'' := h.sources.mem_iff.mp (List.mem_append_left _ (List.mem_flatMap.mpr ⟨p, hp, List.mem_map_of_mem hb'⟩))
  have ht'' := h.targets.mem_iff.mp (List.mem_append_left _ (List.mem_flatMap.mpr ⟨p, hp, ht'⟩))
  have hs : Starts A₀.top A₀.bottom lv (.left (m.endOf b)) [Side.conn ⟨⟨m.endOf b, true⟩, ⟨t, false⟩⟩] := by
    intro x hx; cases hx; exact turns_leftUp hb''
  have he : Ends A₀.top A₀.bottom lv [Side.conn ⟨⟨m.endOf b, true⟩, ⟨t, false⟩⟩] (.left t) := by
    intro x hx; cases hx; exact turns_downLeft ht''
  have hpath := q1.append p1 q3 p2 (Turns.refl _) (by omega)
  exact contour_of_path (l := [Side.conn ⟨⟨m.endOf b, true⟩, ⟨t, false⟩⟩] ++ _)
    (Path.append (.singleton _) hpath he (q2.append n2) (Turns.refl _) (by omega)) ((p3.append n1).append (by simp [n1]))
    (hs.append (by simp)) (Turns.refl _) (by omega)

end

/-! ### Perimeters -/

section

variable {σ T : Type} [CommRing T] [LinearOrder T] [IsStrictOrderedRing T] {D : Decomp σ T}

theorem horizontalBottom_eq (i : ℕ) : ∀ (l : List Label) (a b : Label) (first : Bool), (∀ x ∈ l, x ∈ D.lengths.conns.keys) → l.head? = some a → l.getLast? = some b →
    ∃ r, D.horizontalBottom first (l.map (fun x => ⟨i, x, false⟩)) = .ok r ∧
      l.flatMap (fun x => Decomp.crossList D.lengths.conns ⟨i, x, false⟩) =
        (if first then ((D.lengths.conns.val a).bottomLeft.map Side.conn).reverse else []) ++ r ++ (D.lengths.conns.val b).bottomRight.map Side.conn
  | [], _, _, _, _, h, _ => by cases h
  | [x], a, b, first, hk, ha, hb => by
    cases ha; cases hb
    refine ⟨_, by simp only [List.map_cons, List.map_nil, Decomp.horizontalBottom, Decomp.connections_ok (hk x (by simp)), bind, Except.bind, pure, Except.pure]; rfl, ?_⟩
    cases first <;> simp [Decomp.crossList]
  | x :: y :: l, a, b, first, hk, ha, hb => by
    cases ha
    rw [List.getLast?_cons_cons] at hb
    obtain ⟨r, h1, h2⟩ := horizontalBottom_eq i (y :: l) y b false (fun z hz => hk z (List.mem_cons_of_mem _ hz)) rfl hb
    refine ⟨_, by rw [List.map_cons, Decomp.horizontalBottom, Decomp.connections_ok (hk x (by simp)), h1]; rfl, ?_⟩
    rw [List.flatMap_cons, h2]
    cases first <;> simp [Decomp.crossList]

theorem horizontalTop_eq (i : ℕ) : ∀ (l : List Label) (a b : Label) (first : Bool), (∀ x ∈ l, x ∈ D.lengths.conns.keys) → l.head? = some a → l.getLast? = some b →
    ∃ r, D.horizontalTop first (l.map (fun x => ⟨i, x, true⟩)) = .ok r ∧
      l.reverse.flatMap (fun x => Decomp.crossList D.lengths.conns ⟨i, x, true⟩) =
        (D.lengths.conns.val b).topRight.map Side.conn ++ r.reverse ++ (if first then ((D.lengths.conns.val a).topLeft.map Side.conn).reverse else [])
  | [], _, _, _, _, h, _ => by cases h
  | [x], a, b, first, hk, ha, hb => by
    cases ha; cases hb
    refine ⟨_, by simp only [List.map_cons, List.map_nil, Decomp.horizontalTop, Decomp.connections_ok (hk x (by simp)), bind, Except.bind, pure, Except.pure]; rfl, ?_⟩
    cases first <;> simp [Decomp.crossList]
  | x :: y :: l, a, b, first, hk, ha, hb => by
    cases ha
    rw [List.getLast?_cons_cons] at hb
    obtain ⟨r, h1, h2⟩ := horizontalTop_eq i (y :: l) y b false (fun z hz => hk z (List.mem_cons_of_mem _ hz)) rfl hb
    refine ⟨_, by rw [List.map_cons, Decomp.horizontalTop, Decomp.connections_ok (hk x (by simp)), h1]; rfl, ?_⟩
    rw [List.reverse_cons, List.flatMap_append, h2]
    cases first <;> simp [Decomp.crossList]

/-- The perimeter is the walk along the bottom and back along the top, up to the point at which we start. -/
theorem perimeter_cycle {i : ℕ} {x : Comp T} (hx : D.comps[i]? = some x) (hsw : x.iet.swapped = false) (hn : x.iet.top ≠ []) (hn' : x.iet.bottom ≠ [])
    (hk : ∀ a ∈ x.iet.top, a ∈ D.lengths.conns.keys) (hk' : ∀ a ∈ x.iet.bottom, a ∈ D.lengths.conns.keys) {p : List Side} (hp : D.perimeter i = .ok p) :
    (p : Cycle Side) = ((x.iet.bottom.flatMap (fun l => Decomp.crossList D.lengths.conns ⟨i, l, false⟩) ++
      x.iet.top.reverse.flatMap (fun l => Decomp.crossList D.lengths.conns ⟨i, l, true⟩) : List Side) : Cycle Side) := by
  have htc : x.topContour = x.iet.top := by simp [Comp.topContour, hsw]
  have hbc : x.bottomContour = x.iet.bottom := by simp [Comp.bottomContour, hsw]
  have hcomp : D.comp i = .ok x := by simp [Decomp.comp, hx]
  obtain ⟨a, ha⟩ : ∃ y, x.iet.bottom.head? = some y := ⟨_, List.head?_eq_some_head hn'⟩
  obtain ⟨b, hb⟩ : ∃ y, x.iet.bottom.getLast? = some y := ⟨_, List.getLast?_eq_some_getLast hn'⟩
  obtain ⟨f, hf⟩ : ∃ y, x.iet.top.head? = some y := ⟨_, List.head?_eq_some_head hn⟩
  obtain ⟨t, ht⟩ : ∃ y, x.iet.top.getLast? = some y := ⟨_, List.getLast?_eq_some_getLast hn⟩
  obtain ⟨r, r1, r2⟩ := horizontalBottom_eq i _ a b true hk' ha hb
  obtain ⟨q, q1, q2⟩ := horizontalTop_eq i _ f t true hk hf ht
  have ha' := hk' _ (List.mem_of_mem_head? ha)
  have hb' := hk' _ (List.mem_of_mem_getLast? hb)
  have hf' := hk _ (List.mem_of_mem_head? hf)
  have ht' := hk _ (List.mem_of_mem_getLast? ht)
  have hlast : ∀ {l : List Label} {u : Label}, l.getLast? = some u → Decomp.lastM l = .ok u := by
    intro l u hu
    rw [Decomp.lastM, Decomp.headM_ok (by simpa using hu)]
  have htop : D.topContour i = .ok (x.iet.top.map (fun l => ⟨i, l, true⟩)) := by
    simp only [Decomp.topContour, hcomp, htc, bind, Except.bind, pure, Except.pure]
  have hbot : D.bottomContour i = .ok (x.iet.bottom.map (fun l => ⟨i, l, false⟩)) := by
    simp only [Decomp.bottomContour, hcomp, hbc, bind, Except.bind, pure, Except.pure]
  have hleft : D.left i = .ok (((((D.lengths.conns.val a).bottomLeft ++ (D.lengths.conns.val f).topLeft).map Side.conn)).reverse) := by
    simp only [Decomp.left, hcomp, htc, hbc, Decomp.headM_ok hf, Decomp.headM_ok ha, Decomp.connections_ok ha', Decomp.connections_ok hf', bind, Except.bind, pure, Except.pure]
  have hright : D.right i = .ok (((D.lengths.conns.val b).bottomRight ++ (D.lengths.conns.val t).topRight).map Side.conn) := by
    simp only [Decomp.right, hcomp, htc, hbc, hlast hb, hlast ht, Decomp.connections_ok hb', Decomp.connections_ok ht', bind, Except.bind, pure, Except.pure]
  simp only [Decomp.perimeter, Decomp.bottom, Decomp.top, htop, hbot, r1, q1, hleft, hright, bind, Except.bind, pure, Except.pure] at hp
  split at hp
  · cases hp
  · cases hp
    rw [r2, q2, if_pos rfl, if_pos rfl, Cycle.coe_eq_coe]
    have h : ∀ u v w x y z : List Side, (v ++ (w ++ x) ++ y ++ (z ++ u)).IsRotated (u ++ v ++ w ++ (x ++ y ++ z)) := by
      intro u v w x y z
      have e : v ++ (w ++ x) ++ y ++ (z ++ u) = (v ++ w ++ x ++ y ++ z) ++ u := by simp
      have e' : u ++ v ++ w ++ (x ++ y ++ z) = u ++ (v ++ w ++ x ++ y ++ z) := by simp
      rw [e, e']
      exact List.isRotated_append
    simp only [List.map_append, List.reverse_append]
    exact h _ _ _ _ _ _

end

end Verif
