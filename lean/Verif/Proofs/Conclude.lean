import Verif.Proofs.Track
import Verif.Model.Decomposition

/-!
# Registering connections in a decomposition
-/

namespace Verif

set_option linter.unusedSectionVars false

variable {σ T : Type}

namespace Decomp

theorem comp_ok {D : Decomp σ T} {i : ℕ} {c : Comp T} (h : D.comps[i]? = some c) : D.comp i = .ok c := by simp [comp, h]

theorem connections_ok {D : Decomp σ T} {l : Label} (h : l ∈ D.lengths.conns.keys) : D.connections l = .ok (D.lengths.conns.val l) := by
  simp [connections, ConnMap.at', h]

theorem modify_ok {D : Decomp σ T} {l : Label} (f : Conns → Conns) (h : l ∈ D.lengths.conns.keys) :
    D.modify l f = .ok { D with lengths := { D.lengths with conns := D.lengths.conns.set l (f (D.lengths.conns.val l)) } } := by
  simp [modify, ConnMap.update, ConnMap.at', h, bind, Except.bind, pure, Except.pure]

theorem headM_ok {l : List Label} {a : Label} (h : l.head? = some a) : headM l = .ok a := by
  cases l with
  | nil => cases h
  | cons x l => simp only [List.head?_cons, Option.some.injEq] at h; subst h; rfl

theorem lastM_ok {l : List Label} {a : Label} (h : l.getLast? = some a) : lastM l = .ok a := by
  unfold lastM; exact headM_ok (by simpa using h)

/-! ### Separatrices -/

theorem chainBottom_ok : ∀ (cs : List Conn) (l : Label), IsChain l cs → chainBottom cs ⟨l, true⟩ = .ok ⟨chainEnd l cs, true⟩
  | [], _, _ => rfl
  | c :: cs, l, ⟨h1, h2⟩ => by
    simp only [chainBottom, assertM, h1, decide_true, if_true, bind, Except.bind]
    exact chainBottom_ok cs _ h2

theorem makeAtBottom_ok {D : Decomp σ T} {l : Label} (h : l ∈ D.lengths.conns.keys) (hc : IsChain l (D.lengths.conns.val l).bottomRight) :
    D.makeAtBottom l = .ok ⟨D.lengths.conns.endOf l, true⟩ := by
  simp only [makeAtBottom, connections_ok h, bind, Except.bind]
  exact chainBottom_ok _ _ hc

theorem makeAtTop_ok {D : Decomp σ T} {l : Label} (h : l ∈ D.lengths.conns.keys) (hc : (D.lengths.conns.val l).topRight = []) :
    D.makeAtTop l = .ok ⟨l, false⟩ := by
  simp only [makeAtTop, connections_ok h, bind, Except.bind, hc, List.reverse_nil]; rfl

/-! ### Walking around a component -/

/-- What `HalfEdge::cross` returns. -/
def crossList (m : ConnMap) (h : HalfEdge) : List Side :=
  if h.top then (m.val h.label).topRight.map .conn ++ [.edge h] ++ ((m.val h.label).topLeft.map .conn).reverse
  else ((m.val h.label).bottomLeft.map .conn).reverse ++ [.edge h] ++ (m.val h.label).bottomRight.map .conn

theorem cross_ok {D : Decomp σ T} {h : HalfEdge} (hk : h.label ∈ D.lengths.conns.keys) : D.cross h = .ok (crossList D.lengths.conns h) := by
  unfold cross heLeft heRight crossList
  rw [connections_ok hk]
  cases h.top <;> rfl

/-- The sides at a half edge in reversed order and orientation. -/
def crossRev (m : ConnMap) (h : HalfEdge) : List Side := (crossList m h).reverse.map Side.flip

theorem crossReversed_ok {D : Decomp σ T} {h : HalfEdge} (hk : h.label ∈ D.lengths.conns.keys) :
    D.crossReversed h = .ok (crossRev D.lengths.conns h) := by
  simp only [crossReversed, cross_ok hk, bind, Except.bind, pure, Except.pure]; rfl

theorem walkAlong_ok {D : Decomp σ T} (i : ℕ) (top : Bool) (dst : Label) : ∀ (l : List Label), (∀ x ∈ l, x ∈ D.lengths.conns.keys) →
    (l ++ [dst]).Nodup → dst ∈ D.lengths.conns.keys →
    D.walkAlong i top dst (l ++ [dst]) = .ok ((l ++ [dst]).flatMap (fun x => crossRev D.lengths.conns ⟨i, x, top⟩), true)
  | [], _, _, hd => by
    simp only [List.nil_append, walkAlong, bind, Except.bind, pure, Except.pure, List.flatMap_cons, List.flatMap_nil, List.append_nil]
    rw [crossReversed_ok hd]
    simp
  | x :: l, h, hn, hd => by
    have hx : x ≠ dst := by
      rintro rfl
      simp at hn
    simp only [List.cons_append, walkAlong, bind, Except.bind, pure, Except.pure, List.flatMap_cons]
    rw [crossReversed_ok (h x (by simp)), walkAlong_ok i top dst l (fun y hy => h y (List.mem_cons_of_mem _ hy))
      (by rw [List.cons_append, List.nodup_cons] at hn; exact hn.2) hd]
    simp [hx]

theorem dropWhile_head {l : List Label} {a : Label} (h : l.head? = some a) : l.dropWhile (fun x => x ≠ a) = l := by
  cases l with
  | nil => rfl
  | cons x l => simp only [List.head?_cons, Option.some.injEq] at h; subst h; simp

/-- The walk from the end of the bottom contour along bottom and top to the end of the top contour. -/
theorem walkClockwise_ok {D : Decomp σ T} {i : ℕ} {c : Comp T} (hc : D.comps[i]? = some c) (hs : c.iet.swapped = false)
    (hk : ∀ x ∈ c.iet.top, x ∈ D.lengths.conns.keys) (hk' : ∀ x ∈ c.iet.bottom, x ∈ D.lengths.conns.keys)
    (hn : c.iet.top.Nodup) (hn' : c.iet.bottom.Nodup) {b t : Label}
    (hb : c.iet.bottom.getLast? = some b) (ht : c.iet.top.getLast? = some t) :
    D.walkClockwise 4 ⟨i, b, false⟩ ⟨i, t, true⟩ = .ok (c.iet.bottom.reverse.flatMap (fun x => crossRev D.lengths.conns ⟨i, x, false⟩) ++
      c.iet.top.flatMap (fun x => crossRev D.lengths.conns ⟨i, x, true⟩)) := by
  have hbc : c.bottomContour = c.iet.bottom := by simp [Comp.bottomContour, hs]
  have htc : c.topContour = c.iet.top := by simp [Comp.topContour, hs]
  have hcomp := comp_ok hc
  have compBot : ∀ x ∈ c.iet.bottom, D.component ⟨i, x, false⟩ = .ok i := by
    intro x hx
    simp only [component, Bool.false_eq_true, if_false, bottomContour, hcomp, hbc, bind, Except.bind, pure, Except.pure, assertM]
    rw [if_pos]
    simpa using hx
  have compTop : ∀ x ∈ c.iet.top, D.component ⟨i, x, true⟩ = .ok i := by
    intro x hx
    simp only [component, if_true, topContour, hcomp, htc, bind, Except.bind, pure, Except.pure, assertM]
    rw [if_pos]
    simpa using hx
  obtain ⟨b', hb'⟩ : ∃ b', c.iet.bottom.head? = some b' := by
    cases h : c.iet.bottom with
    | nil => rw [h] at hb; cases hb
    | cons x l => exact ⟨x, rfl⟩
  obtain ⟨t', ht'⟩ : ∃ t', c.iet.top.head? = some t' := by
    cases h : c.iet.top with
    | nil => rw [h] at ht; cases ht
    | cons x l => exact ⟨x, rfl⟩
  have hbm := List.mem_of_getLast? hb
  have htm := List.mem_of_getLast? ht
  have hbm' := List.mem_of_head? hb'
  have htm' := List.mem_of_head? ht'
  have w1 : D.walkClockwise 3 ⟨i, b, false⟩ ⟨i, b', false⟩ =
      .ok (c.iet.bottom.reverse.flatMap (fun x => crossRev D.lengths.conns ⟨i, x, false⟩)) := by
    have hd : c.iet.bottom.reverse.dropWhile (fun x => x ≠ b) = c.iet.bottom.reverse := dropWhile_head (by simpa using hb)
    obtain ⟨l, hl⟩ : ∃ l, c.iet.bottom.reverse = l ++ [b'] := by
      cases h : c.iet.bottom with
      | nil => rw [h] at hb'; cases hb'
      | cons x l => rw [h] at hb'; simp only [List.head?_cons, Option.some.injEq] at hb'; subst hb'; exact ⟨l.reverse, by simp⟩
    simp only [walkClockwise, compBot b hbm, compBot b' hbm', bind, Except.bind, pure, Except.pure, assertM, decide_true, if_true, hcomp]
    rw [hd, hl, walkAlong_ok i false b' l]
    · simp
    · intro x hx
      exact hk' x (by rw [← List.mem_reverse, hl]; simp [hx])
    · rw [← hl, List.nodup_reverse]; exact hn'
    · exact hk' _ hbm'
  have w2 : D.walkClockwise 3 ⟨i, t', true⟩ ⟨i, t, true⟩ =
      .ok (c.iet.top.flatMap (fun x => crossRev D.lengths.conns ⟨i, x, true⟩)) := by
    have hd : c.iet.top.dropWhile (fun x => x ≠ t') = c.iet.top := dropWhile_head ht'
    obtain ⟨l, hl⟩ := List.getLast?_eq_some_iff.mp ht
    simp only [walkClockwise, compTop t htm, compTop t' htm', bind, Except.bind, pure, Except.pure, assertM, decide_true, if_true, hcomp]
    rw [hd, hl, walkAlong_ok i true t l]
    · simp
    · intro x hx
      exact hk x (by rw [hl]; simp [hx])
    · rw [← hl]; exact hn
    · exact hk _ htm
  rw [walkClockwise]
  simp only [compBot b hbm, compTop t htm, bind, Except.bind, pure, Except.pure, assertM, decide_true, if_true, hcomp, hbc, htc,
    headM_ok hb', headM_ok ht']
  rw [w1, w2]

/-! ### Separating connections -/

/-- The effect of component.cc:330-342 on the connections. -/
def separatedConns (m : ConnMap) (b y : Label) (conn : Conn) : ConnMap :=
  let m := m.set b { m.val b with bottomRight := (m.val b).bottomRight ++ [conn] }
  m.set y { m.val y with bottomLeft := (m.val y).bottomLeft ++ [conn.neg] }

theorem separating_ok' {D : Decomp σ T} {i : ℕ} {c : Comp T} (hc : D.comps[i]? = some c) (hs : c.iet.swapped = false)
    (hk : ∀ x ∈ c.iet.top, x ∈ D.lengths.conns.keys) (hk' : ∀ x ∈ c.iet.bottom, x ∈ D.lengths.conns.keys)
    (hn : c.iet.top.Nodup) (hn' : c.iet.bottom.Nodup) {b t : Label}
    (hb : c.iet.bottom.getLast? = some b) (ht : c.iet.top.getLast? = some t)
    {b' t' : Label} (hmb : D.makeAtBottom b = .ok ⟨b', true⟩) (hmt : D.makeAtTop t = .ok ⟨t', false⟩)
    {R : IET T} (hR : R.swapped = false) {y : Label} (hy : R.bottom.head? = some y) (hyk : y ∈ D.lengths.conns.keys)
    {z : Label} (hz : R.top.head? = some z) (hzk : z ∈ D.lengths.conns.keys) :
    D.separating i b t R = .ok ({
      result := .separatingConnection,
      connection := some ⟨⟨b', true⟩, ⟨t', false⟩⟩,
      equivalent := some (c.iet.bottom.reverse.flatMap (fun x => crossRev D.lengths.conns ⟨i, x, false⟩) ++
        c.iet.top.flatMap (fun x => crossRev D.lengths.conns ⟨i, x, true⟩)),
      additional := some D.comps.length },
      { comps := D.comps ++ [{ iet := R }]
        lengths := { D.lengths with
          conns := separatedConns D.lengths.conns b y ⟨⟨b', true⟩, ⟨t', false⟩⟩ } }) := by
  have hbc : c.bottomContour = c.iet.bottom := by simp [Comp.bottomContour, hs]
  have htc : c.topContour = c.iet.top := by simp [Comp.topContour, hs]
  have hbk := hk' b (List.mem_of_getLast? hb)
  have htk := hk t (List.mem_of_getLast? ht)
  have hi : i < D.comps.length := (List.getElem?_eq_some_iff.mp hc).1
  simp only [separating, comp_ok hc, hbc, htc, lastM_ok hb, lastM_ok ht, walkClockwise_ok hc hs hk hk' hn hn' hb ht, bind, Except.bind, pure,
    Except.pure, hmb, hmt]
  set conn : Conn := ⟨⟨b', true⟩, ⟨t', false⟩⟩ with hconn
  have hreg : registerSeparating { comps := D.comps ++ [{ iet := R }], lengths := D.lengths } i conn D.comps.length =
      .ok { comps := D.comps ++ [{ iet := R }]
            lengths := { D.lengths with conns := separatedConns D.lengths.conns b y conn } } := by
    have hc1 : (D.comps ++ [({ iet := R } : Comp T)])[i]? = some c := by rw [List.getElem?_append_left hi]; exact hc
    have hc2 : (D.comps ++ [({ iet := R } : Comp T)])[D.comps.length]? = some { iet := R } := by simp
    have hc1' : ∀ l : LWC σ, Decomp.comp { comps := D.comps ++ [({ iet := R } : Comp T)], lengths := l } i = .ok c := fun l => comp_ok hc1
    have hc2' : ∀ l : LWC σ, Decomp.comp { comps := D.comps ++ [({ iet := R } : Comp T)], lengths := l } D.comps.length = .ok { iet := R } :=
      fun l => comp_ok hc2
    have hbc' : Comp.bottomContour { iet := R } = R.bottom := by simp [Comp.bottomContour, hR]
    have htc' : Comp.topContour { iet := R } = R.top := by simp [Comp.topContour, hR]
    have hset : ∀ (m : ConnMap) (l : Label) (x : Conns), (m.set l x).keys = m.keys := fun _ _ _ => rfl
    simp only [registerSeparating, assertM, hc1', lastM_ok hb, bind, Except.bind, pure, Except.pure,
      show conn.parallel = true from rfl, if_true, ne_eq, hi.ne, not_false_eq_true, decide_true]
    rw [modify_ok (D := { comps := D.comps ++ [{ iet := R }], lengths := D.lengths }) _ hbk]
    simp only [hc2', headM_ok hy]
    rw [modify_ok _ (by simp only [hset]; exact hyk)]
    simp only
    have hright : Decomp.right { comps := D.comps ++ [({ iet := R } : Comp T)], lengths := { D.lengths with
        conns := separatedConns D.lengths.conns b y conn } } i ≠ .ok [] ∧ ∃ x, Decomp.right { comps := D.comps ++ [({ iet := R } : Comp T)], lengths := { D.lengths with
        conns := separatedConns D.lengths.conns b y conn } } i = .ok x := by
      have e1 : ∀ l, l ∈ D.lengths.conns.keys → Decomp.connections { comps := D.comps ++ [({ iet := R } : Comp T)], lengths := { D.lengths with
        conns := separatedConns D.lengths.conns b y conn } } l = .ok ((separatedConns D.lengths.conns b y conn).val l) :=
        fun l hl => connections_ok hl
      simp only [Decomp.right, hc1', hbc, htc, lastM_ok hb, lastM_ok ht, bind, Except.bind, pure, Except.pure, e1 b hbk, e1 t htk]
      refine ⟨?_, _, rfl⟩
      simp only [ne_eq, Except.ok.injEq, List.map_append, List.append_eq_nil_iff, List.map_eq_nil_iff, not_and_or]
      left
      by_cases hby : b = y
      · subst hby; simp [separatedConns, ConnMap.set]
      · simp [separatedConns, ConnMap.set, hby]
    have hleft : Decomp.left { comps := D.comps ++ [({ iet := R } : Comp T)], lengths := { D.lengths with
        conns := separatedConns D.lengths.conns b y conn } } D.comps.length ≠ .ok [] ∧ ∃ x, Decomp.left { comps := D.comps ++ [({ iet := R } : Comp T)], lengths := { D.lengths with
        conns := separatedConns D.lengths.conns b y conn } } D.comps.length = .ok x := by
      have e1 : ∀ l, l ∈ D.lengths.conns.keys → Decomp.connections { comps := D.comps ++ [({ iet := R } : Comp T)], lengths := { D.lengths with
        conns := separatedConns D.lengths.conns b y conn } } l = .ok ((separatedConns D.lengths.conns b y conn).val l) :=
        fun l hl => connections_ok hl
      simp only [Decomp.left, hc2', hbc', htc', headM_ok hy, headM_ok hz, bind, Except.bind, pure, Except.pure, e1 y hyk, e1 z hzk]
      refine ⟨?_, _, rfl⟩
      simp only [ne_eq, Except.ok.injEq, List.reverse_eq_nil_iff, List.map_append, List.append_eq_nil_iff, List.map_eq_nil_iff, not_and_or]
      left
      simp [separatedConns, ConnMap.set]
    obtain ⟨hr1, r, hr2⟩ := hright
    obtain ⟨hl1, l, hl2⟩ := hleft
    have hr3 : r ≠ [] := by rintro rfl; exact hr1 hr2
    have hl3 : l ≠ [] := by rintro rfl; exact hl1 hl2
    simp only [separatedConns] at hr2 hl2
    simp only [hr2, hl2, hr3, hl3, not_false_eq_true, decide_true, if_true, separatedConns]
  rw [hreg]

theorem separating_ok {D : Decomp σ T} {i : ℕ} {c : Comp T} (hc : D.comps[i]? = some c) (hs : c.iet.swapped = false)
    (hk : ∀ x ∈ c.iet.top, x ∈ D.lengths.conns.keys) (hk' : ∀ x ∈ c.iet.bottom, x ∈ D.lengths.conns.keys)
    (hn : c.iet.top.Nodup) (hn' : c.iet.bottom.Nodup) {b t : Label}
    (hb : c.iet.bottom.getLast? = some b) (ht : c.iet.top.getLast? = some t)
    (hchain : IsChain b (D.lengths.conns.val b).bottomRight) (htr : (D.lengths.conns.val t).topRight = [])
    {R : IET T} (hR : R.swapped = false) {y : Label} (hy : R.bottom.head? = some y) (hyk : y ∈ D.lengths.conns.keys)
    {z : Label} (hz : R.top.head? = some z) (hzk : z ∈ D.lengths.conns.keys) :
    D.separating i b t R = .ok ({
      result := .separatingConnection,
      connection := some ⟨⟨D.lengths.conns.endOf b, true⟩, ⟨t, false⟩⟩,
      equivalent := some (c.iet.bottom.reverse.flatMap (fun x => crossRev D.lengths.conns ⟨i, x, false⟩) ++
        c.iet.top.flatMap (fun x => crossRev D.lengths.conns ⟨i, x, true⟩)),
      additional := some D.comps.length },
      { comps := D.comps ++ [{ iet := R }]
        lengths := { D.lengths with
          conns := separatedConns D.lengths.conns b y ⟨⟨D.lengths.conns.endOf b, true⟩, ⟨t, false⟩⟩ } }) :=
  separating_ok' hc hs hk hk' hn hn' hb ht (makeAtBottom_ok (hk' b (List.mem_of_getLast? hb)) hchain) (makeAtTop_ok (hk t (List.mem_of_getLast? ht)) htr) hR hy hyk hz hzk

/-! ### Non-separating connections -/

/-- The effect of component.cc:247-270 on the connections. -/
def mergedConns (m : ConnMap) (b f t : Label) (conn : Conn) : ConnMap :=
  let m := m.set b { m.val b with bottomRight := (m.val b).bottomRight ++ [conn] }
  let m := m.set f { m.val f with topLeft := conn.neg :: (m.val f).topLeft }
  let ct := m.val t
  let m := m.set b { m.val b with
    bottomLeft := (m.val b).bottomLeft ++ ct.topLeft ++ ct.bottomLeft
    bottomRight := (m.val b).bottomRight ++ ct.topRight ++ ct.bottomRight }
  m.set t {}

theorem nonSeparating_ok' {D : Decomp σ T} {i : ℕ} {c : Comp T} (hc : D.comps[i]? = some c) (hs : c.iet.swapped = false)
    {b t f g : Label} (hbk : b ∈ D.lengths.conns.keys) (htk : t ∈ D.lengths.conns.keys) (hfk : f ∈ D.lengths.conns.keys)
    (hgk : g ∈ D.lengths.conns.keys)
    (hf : c.iet.top.head? = some f) (hg : c.iet.bottom.head? = some g) (hbt : b ≠ t) (hft : f ≠ t)
    {b' t' : Label} (hmb : D.makeAtBottom b = .ok ⟨b', true⟩) (hmt : D.makeAtTop t = .ok ⟨t', false⟩) :
    D.nonSeparating i b t = .ok ({
      result := .nonSeparatingConnection,
      connection := some ⟨⟨b', true⟩, ⟨t', false⟩⟩,
      equivalent := some ((crossList D.lengths.conns ⟨i, t, true⟩ ++ crossList D.lengths.conns ⟨i, b, false⟩).reverse.map Side.flip) },
      { comps := D.comps
        lengths := { D.lengths with
          conns := mergedConns D.lengths.conns b f t ⟨⟨b', true⟩, ⟨t', false⟩⟩ } }) := by
  have hbc : c.bottomContour = c.iet.bottom := by simp [Comp.bottomContour, hs]
  have htc : c.topContour = c.iet.top := by simp [Comp.topContour, hs]
  have hset : ∀ (m : ConnMap) (l : Label) (x : Conns), (m.set l x).keys = m.keys := fun _ _ _ => rfl
  simp only [nonSeparating, assertM, comp_ok hc, bind, Except.bind, pure, Except.pure, ne_eq, hbt, hft, not_false_eq_true, decide_true, if_true,
    hmb, hmt, headM_ok hf]
  rw [cross_ok htk, cross_ok hbk]
  simp only
  rw [modify_ok _ hbk]
  simp only
  rw [modify_ok _ (by simp only [hset]; exact hfk)]
  simp only
  rw [connections_ok (by simp only [hset]; exact htk)]
  simp only
  rw [modify_ok _ (by simp only [hset]; exact hbk)]
  simp only
  rw [modify_ok _ (by simp only [hset]; exact htk)]
  simp only
  set conn : Conn := ⟨⟨b', true⟩, ⟨t', false⟩⟩ with hconn
  have hleft : Decomp.left { comps := D.comps, lengths := { D.lengths with conns := mergedConns D.lengths.conns b f t conn } } i ≠ .ok [] ∧
      ∃ x, Decomp.left { comps := D.comps, lengths := { D.lengths with conns := mergedConns D.lengths.conns b f t conn } } i = .ok x := by
    have e1 : ∀ l, l ∈ D.lengths.conns.keys → Decomp.connections { comps := D.comps, lengths := { D.lengths with
        conns := mergedConns D.lengths.conns b f t conn } } l = .ok ((mergedConns D.lengths.conns b f t conn).val l) :=
        fun l hl => connections_ok hl
    have e2 : Decomp.comp { comps := D.comps, lengths := { D.lengths with conns := mergedConns D.lengths.conns b f t conn } } i = .ok c :=
      comp_ok hc
    simp only [Decomp.left, e2, hbc, htc, headM_ok hf, headM_ok hg, bind, Except.bind, pure, Except.pure, e1 f hfk, e1 g hgk]
    refine ⟨?_, _, rfl⟩
    simp only [ne_eq, Except.ok.injEq, List.reverse_eq_nil_iff, List.map_append, List.append_eq_nil_iff, List.map_eq_nil_iff, not_and_or]
    right
    by_cases hfb : f = b
    · subst hfb; simp [mergedConns, ConnMap.set, hft]
    · simp [mergedConns, ConnMap.set, hft, hfb]
  obtain ⟨hl1, l, hl2⟩ := hleft
  have hl3 : l ≠ [] := by rintro rfl; exact hl1 hl2
  simp only [mergedConns] at hl2
  simp only [hl2, hl3, not_false_eq_true, decide_true, if_true, mergedConns]

theorem nonSeparating_ok {D : Decomp σ T} {i : ℕ} {c : Comp T} (hc : D.comps[i]? = some c) (hs : c.iet.swapped = false)
    {b t f g : Label} (hbk : b ∈ D.lengths.conns.keys) (htk : t ∈ D.lengths.conns.keys) (hfk : f ∈ D.lengths.conns.keys)
    (hgk : g ∈ D.lengths.conns.keys)
    (hf : c.iet.top.head? = some f) (hg : c.iet.bottom.head? = some g) (hbt : b ≠ t) (hft : f ≠ t)
    (hchain : IsChain b (D.lengths.conns.val b).bottomRight) (htr : (D.lengths.conns.val t).topRight = []) :
    D.nonSeparating i b t = .ok ({
      result := .nonSeparatingConnection,
      connection := some ⟨⟨D.lengths.conns.endOf b, true⟩, ⟨t, false⟩⟩,
      equivalent := some ((crossList D.lengths.conns ⟨i, t, true⟩ ++ crossList D.lengths.conns ⟨i, b, false⟩).reverse.map Side.flip) },
      { comps := D.comps
        lengths := { D.lengths with
          conns := mergedConns D.lengths.conns b f t ⟨⟨D.lengths.conns.endOf b, true⟩, ⟨t, false⟩⟩ } }) :=
  nonSeparating_ok' hc hs hbk htk hfk hgk hf hg hbt hft (makeAtBottom_ok hbk hchain) (makeAtTop_ok htk htr)

end Decomp

end Verif
