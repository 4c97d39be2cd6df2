import Verif.Model.Lifetime
import Mathlib.Tactic.SplitIfs
import Mathlib.Algebra.Order.BigOperators.Group.List

/-!
# Reference counts are correct
-/

namespace Verif.Lifetime

/-- The `shared_ptr`s that are members of an object that has not been destroyed. -/
def Cell.owns (c : Cell) : List ℕ := if c.count = 0 then [] else c.obj.owns

/-- The reference count of an object. -/
def cnt (heap : List Cell) (a : ℕ) : ℕ := (heap[a]?.map Cell.count).getD 0

/-- All the `shared_ptr`s. -/
def owners (vars : List Var) (heap : List Cell) : List ℕ := vars.flatMap Var.owns ++ heap.flatMap Cell.owns

/-- The objects on the heap refer to objects of the right type. -/
def Typed (objs : List Obj) : Prop :=
  (∀ w l d : ℕ, objs[w]? = some (Obj.withConnections l d) →
    objs[l]? = some Obj.lengths ∧ ∃ cs, objs[d]? = some (Obj.decomposition cs)) ∧
    ∀ (d : ℕ) (cs : List ℕ), objs[d]? = some (Obj.decomposition cs) → ∀ w ∈ cs, ∃ l, objs[w]? = some (Obj.withConnections l d)

/-- A variable refers to an object of the right type. -/
def VarTyped (objs : List Obj) : Var → Prop
  | .lengths a => objs[a]? = some .lengths
  | .iet a => objs[a]? = some .lengths
  | .handle d k => ∃ cs, objs[d]? = some (.decomposition cs) ∧ ∀ i, k = some i → i < cs.length
  | .empty => True

/-- The state of the heap while there are some temporary `shared_ptr`s. -/
structure Inv (vars : List Var) (heap : List Cell) (temp : List ℕ) : Prop where
  count : ∀ a, cnt heap a = (owners vars heap ++ temp).count a
  typed : Typed (heap.map Cell.obj)
  vars : ∀ v ∈ vars, VarTyped (heap.map Cell.obj) v

theorem cnt_set {heap : List Cell} {a : ℕ} {c : Cell} (h : heap[a]? = some c) (c' : Cell) (b : ℕ) :
    cnt (heap.set a c') b = if b = a then c'.count else cnt heap b := by
  have hlt := (List.getElem?_eq_some_iff.mp h).1
  unfold cnt
  split_ifs with hb
  · subst hb; simp [hlt]
  · rw [List.getElem?_set_ne (fun e => hb e.symm)]

theorem flatMap_set : ∀ {heap : List Cell} {a : ℕ} {c : Cell}, heap[a]? = some c → ∀ (c' : Cell) (x : ℕ),
    ((heap.set a c').flatMap Cell.owns).count x + c.owns.count x = (heap.flatMap Cell.owns).count x + c'.owns.count x
  | d :: heap, 0, c, h, c', x => by
    simp at h; subst h
    simp only [List.set_cons_zero, List.flatMap_cons, List.count_append]; omega
  | d :: heap, a + 1, c, h, c', x => by
    have := flatMap_set (heap := heap) (a := a) (by simpa using h) c' x
    simp only [List.set_cons_succ, List.flatMap_cons, List.count_append]; omega
  | [], a, c, h, c', x => by simp at h

theorem map_obj_set {heap : List Cell} {a : ℕ} {c : Cell} (h : heap[a]? = some c) (n : ℕ) :
    (heap.set a { c with count := n }).map Cell.obj = heap.map Cell.obj := by
  apply List.ext_getElem?
  intro b
  rw [List.getElem?_map, List.getElem?_map, List.getElem?_set]
  have hlt := (List.getElem?_eq_some_iff.mp h).1
  split_ifs with hb
  · subst hb; rw [h]; simp
  · rfl

theorem cnt_of {heap : List Cell} {a : ℕ} {c : Cell} (h : heap[a]? = some c) : cnt heap a = c.count := by simp [cnt, h]

theorem cell_of_obj {heap : List Cell} {a : ℕ} {o : Obj} (h : (heap.map Cell.obj)[a]? = some o) : ∃ n, heap[a]? = some ⟨n, o⟩ := by
  rw [List.getElem?_map] at h
  cases hc : heap[a]? with
  | none => rw [hc] at h; cases h
  | some c => rw [hc] at h; simp at h; subst h; exact ⟨c.count, rfl⟩

theorem cnt_pos {heap : List Cell} {a : ℕ} (h : 0 < cnt heap a) : ∃ c, heap[a]? = some c ∧ c.count ≠ 0 := by
  unfold cnt at h
  cases hc : heap[a]? with
  | none => rw [hc] at h; simp at h
  | some c => rw [hc] at h; exact ⟨c, rfl, by simp at h; omega⟩

theorem alive_iff (heap : List Cell) (a : ℕ) : alive heap a = true ↔ 0 < cnt heap a := by
  unfold alive cnt
  cases hc : heap[a]? with
  | none => simp
  | some c => simp [Nat.pos_iff_ne_zero]

namespace Inv

variable {vars : List Var} {heap : List Cell} {temp : List ℕ}

/-- Whatever is owned is alive. -/
theorem pos (I : Inv vars heap temp) {a : ℕ} (h : a ∈ owners vars heap ++ temp) : 0 < cnt heap a := by
  rw [I.count]; exact List.count_pos_iff.mpr h

theorem pos_var (I : Inv vars heap temp) {v : Var} {a : ℕ} (hv : v ∈ vars) (h : a ∈ v.owns) : 0 < cnt heap a :=
  I.pos (by simp only [owners, List.mem_append, List.mem_flatMap]; exact .inl (.inl ⟨v, hv, h⟩))

theorem pos_member (I : Inv vars heap temp) {a b n : ℕ} {o : Obj} (h : heap[a]? = some ⟨n, o⟩) (ha : 0 < cnt heap a) (hb : b ∈ o.owns) :
    0 < cnt heap b := by
  refine I.pos ?_
  simp only [owners, List.mem_append, List.mem_flatMap]
  refine .inl (.inr ⟨_, List.mem_of_getElem? h, ?_⟩)
  rw [cnt_of h] at ha
  simp only [Cell.owns]
  rw [if_neg (by simpa using ha.ne')]
  exact hb

theorem perm (I : Inv vars heap temp) {temp' : List ℕ} (h : temp.Perm temp') : Inv vars heap temp' :=
  ⟨fun a => by rw [I.count, List.count_append, List.count_append, h.count_eq], I.typed, I.vars⟩

/-- Changing a reference count to a positive value. -/
theorem acquire (I : Inv vars heap temp) {a : ℕ} (h : 0 < cnt heap a) :
    ∃ heap', Lifetime.acquire heap a = .ok heap' ∧ Inv vars heap' (a :: temp) ∧ heap'.map Cell.obj = heap.map Cell.obj := by
  obtain ⟨c, hc, h0⟩ := cnt_pos h
  refine ⟨heap.set a { c with count := c.count + 1 }, ?_, ⟨?_, ?_, ?_⟩, map_obj_set hc _⟩
  · simp [Lifetime.acquire, hc, h0]
  · intro b
    have h1 := flatMap_set hc { c with count := c.count + 1 } b
    have h2 : Cell.owns { c with count := c.count + 1 } = c.owns := by simp [Cell.owns, h0]
    rw [h2] at h1
    have h3 := I.count b
    rw [cnt_set hc]
    simp only [owners, List.count_append, List.count_cons] at h3 ⊢
    by_cases hb : b = a
    · subst hb; rw [cnt_of hc] at h3; simp; omega
    · have : (a == b) = false := by simpa using fun e => hb e.symm
      rw [this, if_neg hb]; simp; omega
  · rw [map_obj_set hc]; exact I.typed
  · rw [map_obj_set hc]; exact I.vars

theorem typed_append {objs : List Obj} (h : Typed objs) {o : Obj} (ho : o.owns = [] ∨ ∃ l d cs, o = .withConnections l d ∧
    objs[l]? = some Obj.lengths ∧ objs[d]? = some (Obj.decomposition cs)) (hd : ∀ l d, o = .withConnections l d → o.owns ≠ []) : Typed (objs ++ [o]) := by
  have up : ∀ {a : ℕ} {p : Obj}, objs[a]? = some p → (objs ++ [o])[a]? = some p := by
    intro a p hp
    rw [List.getElem?_append_left (List.getElem?_eq_some_iff.mp hp).1]; exact hp
  have down : ∀ {a : ℕ} {p : Obj}, (objs ++ [o])[a]? = some p → objs[a]? = some p ∨ p = o := by
    intro a p hp
    rw [List.getElem?_append] at hp
    split_ifs at hp with hlt
    · exact .inl hp
    · right
      have := List.mem_of_getElem? hp
      simpa using this
  constructor
  · intro w l d hw
    rcases down hw with hw | hw
    · obtain ⟨h1, cs, h2⟩ := h.1 w l d hw
      exact ⟨up h1, cs, up h2⟩
    · rcases ho with ho | ⟨l', d', cs, rfl, h1, h2⟩
      · exact absurd ho (hd l d hw.symm)
      · cases hw
        exact ⟨up h1, cs, up h2⟩
  · intro d cs hdd w hw
    rcases down hdd with hdd | hdd
    · obtain ⟨l, hl⟩ := h.2 d cs hdd w hw
      exact ⟨l, up hl⟩
    · rcases ho with ho | ⟨l', d', cs', rfl, _⟩
      · subst hdd; simp only [Obj.owns] at ho; subst ho; cases hw
      · cases hdd

theorem varTyped_append {objs : List Obj} {v : Var} (h : VarTyped objs v) (o : Obj) : VarTyped (objs ++ [o]) v := by
  have up : ∀ {a : ℕ} {p : Obj}, objs[a]? = some p → (objs ++ [o])[a]? = some p := by
    intro a p hp
    rw [List.getElem?_append_left (List.getElem?_eq_some_iff.mp hp).1]; exact hp
  cases v with
  | lengths a => exact up h
  | iet a => exact up h
  | handle d k => obtain ⟨cs, h1, h2⟩ := h; exact ⟨cs, up h1, h2⟩
  | empty => trivial

/-- Creating an object; the `shared_ptr`s it contains have been temporary ones. -/
theorem make {o : Obj} (I : Inv vars heap (o.owns ++ temp)) (ht : Typed (heap.map Cell.obj ++ [o])) :
    Inv vars (Lifetime.make heap o) (heap.length :: temp) := by
  refine ⟨?_, by rw [Lifetime.make, List.map_append]; exact ht, ?_⟩
  · intro b
    have h3 := I.count b
    simp only [Lifetime.make, owners, List.count_append, List.count_cons, List.flatMap_append, List.flatMap_cons, List.flatMap_nil] at h3 ⊢
    have h4 : (Cell.owns ⟨1, o⟩) = o.owns := by simp [Cell.owns]
    rw [h4]
    by_cases hb : b < heap.length
    · have : cnt (heap ++ [⟨1, o⟩]) b = cnt heap b := by
        unfold cnt; rw [List.getElem?_append_left hb]
      rw [this, h3]
      have : (heap.length == b) = false := by simp; omega
      rw [this]; simp; omega
    · have hz : cnt heap b = 0 := by
        unfold cnt; rw [List.getElem?_eq_none (by omega)]; rfl
      rw [hz] at h3
      by_cases hb' : b = heap.length
      · subst hb'
        have : cnt (heap ++ [⟨1, o⟩]) heap.length = 1 := by unfold cnt; simp
        rw [this]; simp; omega
      · have : cnt (heap ++ [⟨1, o⟩]) b = 0 := by
          unfold cnt; rw [List.getElem?_eq_none (by simp; omega)]; rfl
        rw [this]
        have : (heap.length == b) = false := by simp; omega
        rw [this]; simp; omega
  · intro v hv
    rw [Lifetime.make, List.map_append]
    exact varTyped_append (I.vars v hv) o

/-- Storing a temporary `shared_ptr` in a variable. -/
theorem bind {v : Var} (I : Inv vars heap (v.owns ++ temp)) (hv : VarTyped (heap.map Cell.obj) v) : Inv (v :: vars) heap temp := by
  refine ⟨fun b => ?_, I.typed, ?_⟩
  · rw [I.count]
    simp only [owners, List.count_append, List.flatMap_cons]; omega
  · intro w hw
    rcases List.mem_cons.mp hw with rfl | hw
    · exact hv
    · exact I.vars w hw

/-- Taking the `shared_ptr` out of a variable. -/
theorem unbind (I : Inv vars heap temp) {i : ℕ} {v : Var} (hv : vars[i]? = some v) : Inv (vars.eraseIdx i) heap (v.owns ++ temp) := by
  refine ⟨fun b => ?_, I.typed, fun w hw => I.vars w (List.mem_of_mem_eraseIdx hw)⟩
  rw [I.count]
  have key : ∀ {vars : List Var} {i : ℕ}, vars[i]? = some v →
      (vars.flatMap Var.owns).count b = ((vars.eraseIdx i).flatMap Var.owns).count b + v.owns.count b := by
    intro vars
    induction vars with
    | nil => intro i h; simp at h
    | cons w ws ih =>
      intro i h
      cases i with
      | zero => simp at h; subst h; simp only [List.eraseIdx_cons_zero, List.flatMap_cons, List.count_append]; omega
      | succ i =>
        have := ih (i := i) (by simpa using h)
        simp only [List.eraseIdx_cons_succ, List.flatMap_cons, List.count_append]; omega
  have := key hv
  simp only [owners, List.count_append]; omega

theorem release : ∀ (n : ℕ) {heap : List Cell} {temp : List ℕ}, Inv vars heap temp → total heap ≤ n →
    ∃ heap', Lifetime.release n temp heap = .ok heap' ∧ Inv vars heap' [] ∧ heap'.map Cell.obj = heap.map Cell.obj
  | n, heap, [], I, _ => ⟨heap, by cases n <;> rfl, I, rfl⟩
  | 0, heap, a :: as, I, hn => by
    obtain ⟨c, hc, h0⟩ := cnt_pos (I.pos (a := a) (by simp))
    have : c.count ≤ total heap := List.le_sum_of_mem (List.mem_map.mpr ⟨c, List.mem_of_getElem? hc, rfl⟩)
    omega
  | n + 1, heap, a :: as, I, hn => by
    obtain ⟨c, hc, h0⟩ := cnt_pos (I.pos (a := a) (by simp))
    have htot : ∀ k, total (heap.set a { c with count := k }) + c.count = total heap + k := by
      intro k
      unfold total
      have : ∀ {heap : List Cell} {a : ℕ}, heap[a]? = some c →
          ((heap.set a { c with count := k }).map Cell.count).sum + c.count = (heap.map Cell.count).sum + k := by
        intro heap
        induction heap with
        | nil => intro a h; simp at h
        | cons d ds ih =>
          intro a h
          cases a with
          | zero => simp at h; subst h; simp; omega
          | succ a => have := ih (a := a) (by simpa using h); simp at this ⊢; omega
      exact this hc
    simp only [Lifetime.release, hc, if_neg h0]
    by_cases h1 : c.count = 1
    · rw [if_pos h1]
      have hI : Inv vars (heap.set a { c with count := 0 }) (c.obj.owns ++ as) := by
        refine ⟨fun b => ?_, by rw [map_obj_set hc]; exact I.typed, by rw [map_obj_set hc]; exact I.vars⟩
        have e1 := flatMap_set hc { c with count := 0 } b
        have e2 : Cell.owns { c with count := 0 } = [] := by simp [Cell.owns]
        have e3 : c.owns = c.obj.owns := by simp [Cell.owns, h0]
        rw [e2, e3] at e1
        have e4 := I.count b
        rw [cnt_set hc]
        simp only [owners, List.count_append, List.count_cons, List.count_nil] at e1 e4 ⊢
        by_cases hb : b = a
        · subst hb; rw [cnt_of hc] at e4; simp at e4 ⊢; omega
        · have : (a == b) = false := by simpa using fun e => hb e.symm
          rw [this] at e4; rw [if_neg hb]; simp at e4; omega
      have := htot 0
      obtain ⟨heap', r1, r2, r3⟩ := release n hI (by omega)
      exact ⟨heap', r1, r2, r3.trans (map_obj_set hc _)⟩
    · rw [if_neg h1]
      have hI : Inv vars (heap.set a { c with count := c.count - 1 }) as := by
        refine ⟨fun b => ?_, by rw [map_obj_set hc]; exact I.typed, by rw [map_obj_set hc]; exact I.vars⟩
        have e1 := flatMap_set hc { c with count := c.count - 1 } b
        have e2 : Cell.owns { c with count := c.count - 1 } = c.obj.owns := by
          simp only [Cell.owns]; rw [if_neg (by omega)]
        have e3 : c.owns = c.obj.owns := by simp [Cell.owns, h0]
        rw [e2, e3] at e1
        have e4 := I.count b
        rw [cnt_set hc]
        simp only [owners, List.count_append, List.count_cons, List.count_nil] at e1 e4 ⊢
        by_cases hb : b = a
        · subst hb; rw [cnt_of hc] at e4; simp at e4 ⊢; omega
        · have : (a == b) = false := by simpa using fun e => hb e.symm
          rw [this] at e4; rw [if_neg hb]; simp at e4; omega
      have := htot (c.count - 1)
      obtain ⟨heap', r1, r2, r3⟩ := release n hI (by omega)
      exact ⟨heap', r1, r2, r3.trans (map_obj_set hc _)⟩

/-- Calls on lengths follow valid pointers only. -/
theorem use_lengths {a : ℕ} (h : (heap.map Cell.obj)[a]? = some .lengths) (ha : 0 < cnt heap a) : Lifetime.use heap a = .ok () := by
  obtain ⟨n, hn⟩ := cell_of_obj h
  rw [cnt_of hn] at ha
  simp only [Lifetime.use, hn]
  rw [if_neg (by simpa using ha.ne')]

theorem use_with (I : Inv vars heap temp) {w l d : ℕ} (h : (heap.map Cell.obj)[w]? = some (.withConnections l d)) (hw : 0 < cnt heap w)
    (hd : 0 < cnt heap d) : Lifetime.use heap w = .ok () := by
  obtain ⟨n, hn⟩ := cell_of_obj h
  have hl : 0 < cnt heap l := I.pos_member hn hw (by simp [Obj.owns])
  rw [cnt_of hn] at hw
  simp only [Lifetime.use, hn]
  rw [if_neg (by simpa using hw.ne'), (alive_iff heap l).mpr hl, (alive_iff heap d).mpr hd]
  rfl

theorem deref {d : ℕ} {cs : List ℕ} (h : (heap.map Cell.obj)[d]? = some (.decomposition cs)) (hd : 0 < cnt heap d) :
    Lifetime.deref heap d = .ok cs := by
  obtain ⟨n, hn⟩ := cell_of_obj h
  rw [cnt_of hn] at hd
  simp only [Lifetime.deref, hn]
  rw [if_neg (by simpa using hd.ne')]

/-- Storing a temporary `shared_ptr` in a new component. -/
theorem addComponent {d n w l : ℕ} {cs : List ℕ} (I : Inv vars heap (w :: temp)) (hd : heap[d]? = some ⟨n, .decomposition cs⟩) (hn : n ≠ 0)
    (hw : (heap.map Cell.obj)[w]? = some (.withConnections l d)) :
    Inv vars (heap.set d ⟨n, .decomposition (cs ++ [w])⟩) temp ∧
      ((heap.set d ⟨n, .decomposition (cs ++ [w])⟩).map Cell.obj)[d]? = some (.decomposition (cs ++ [w])) := by
  have hlt := (List.getElem?_eq_some_iff.mp hd).1
  have hset : ∀ a, ((heap.set d ⟨n, .decomposition (cs ++ [w])⟩).map Cell.obj)[a]? =
      if d = a then some (.decomposition (cs ++ [w])) else (heap.map Cell.obj)[a]? := by
    intro a
    rw [List.getElem?_map, List.getElem?_set, List.getElem?_map]
    split_ifs <;> rfl
  have hdo : (heap.map Cell.obj)[d]? = some (.decomposition cs) := by rw [List.getElem?_map, hd]; rfl
  refine ⟨⟨fun b => ?_, ⟨?_, ?_⟩, ?_⟩, by rw [hset, if_pos rfl]⟩
  · have e1 := flatMap_set hd ⟨n, .decomposition (cs ++ [w])⟩ b
    have e2 : Cell.owns ⟨n, .decomposition (cs ++ [w])⟩ = cs ++ [w] := by simp [Cell.owns, hn, Obj.owns]
    have e3 : Cell.owns ⟨n, .decomposition cs⟩ = cs := by simp [Cell.owns, hn, Obj.owns]
    rw [e2, e3] at e1
    have e4 := I.count b
    rw [cnt_set hd]
    have e5 : (if b = d then n else cnt heap b) = cnt heap b := by
      split_ifs with hb
      · subst hb; rw [cnt_of hd]
      · rfl
    simp only [e5]
    simp only [owners, List.count_append, List.count_cons, List.count_nil] at e1 e4 ⊢
    omega
  · intro w' l' d' h
    rw [hset] at h
    split_ifs at h with hw'
    · cases h
    · obtain ⟨g1, cs', g2⟩ := I.typed.1 w' l' d' h
      refine ⟨?_, ?_⟩
      · rw [hset, if_neg]
        · exact g1
        · rintro rfl; rw [hdo] at g1; cases g1
      · by_cases hdd : d = d'
        · exact ⟨_, by rw [hset, if_pos hdd]⟩
        · exact ⟨cs', by rw [hset, if_neg hdd]; exact g2⟩
  · intro d' cs' h w' hw'
    rw [hset] at h
    have keep : ∀ {x l d' : ℕ}, (heap.map Cell.obj)[x]? = some (Obj.withConnections l d') →
        ((heap.set d ⟨n, .decomposition (cs ++ [w])⟩).map Cell.obj)[x]? = some (Obj.withConnections l d') := by
      intro x l d' hx
      rw [hset, if_neg]
      · exact hx
      · rintro rfl; rw [hdo] at hx; cases hx
    split_ifs at h with hdd
    · subst hdd
      cases h
      rcases List.mem_append.mp hw' with hw' | hw'
      · obtain ⟨l', hl'⟩ := I.typed.2 d cs hdo w' hw'
        exact ⟨l', keep hl'⟩
      · simp at hw'; subst hw'
        exact ⟨l, keep hw⟩
    · obtain ⟨l', hl'⟩ := I.typed.2 d' cs' h w' hw'
      exact ⟨l', keep hl'⟩
  · intro v hv
    have := I.vars v hv
    cases v with
    | lengths a =>
      change _ = _
      rw [hset, if_neg]
      · exact this
      · rintro rfl; rw [VarTyped, hdo] at this; cases this
    | iet a =>
      change _ = _
      rw [hset, if_neg]
      · exact this
      · rintro rfl; rw [VarTyped, hdo] at this; cases this
    | handle d' k =>
      obtain ⟨cs', g1, g2⟩ := this
      by_cases hdd : d = d'
      · subst hdd
        rw [hdo] at g1
        cases g1
        exact ⟨_, by rw [hset, if_pos rfl], fun i hi => by have := g2 i hi; simp; omega⟩
      · exact ⟨cs', by rw [hset, if_neg hdd]; exact g1, g2⟩
    | empty => trivial

/-- Other variables which have the same `shared_ptr`s. -/
theorem vars_of {vars' : List Var} {temp' : List ℕ} (I : Inv vars heap temp)
    (hc : ∀ a, (vars'.flatMap Var.owns).count a + temp'.count a = (vars.flatMap Var.owns).count a + temp.count a)
    (hv : ∀ v ∈ vars', v ∈ vars ∨ v = .empty) : Inv vars' heap temp' := by
  refine ⟨fun a => ?_, I.typed, fun v h => ?_⟩
  · have h1 := I.count a
    have h2 := hc a
    simp only [owners, List.count_append] at h1 ⊢
    omega
  · rcases hv v h with h | rfl
    · exact I.vars v h
    · trivial

end Inv

theorem vars_set : ∀ {vars : List Var} {i : ℕ} {v : Var}, vars[i]? = some v → ∀ (v' : Var) (x : ℕ),
    ((vars.set i v').flatMap Var.owns).count x + v.owns.count x = (vars.flatMap Var.owns).count x + v'.owns.count x
  | w :: vars, 0, v, h, v', x => by
    simp at h; subst h
    simp only [List.set_cons_zero, List.flatMap_cons, List.count_append]; omega
  | w :: vars, i + 1, v, h, v', x => by
    have := vars_set (vars := vars) (i := i) (by simpa using h) v' x
    simp only [List.set_cons_succ, List.flatMap_cons, List.count_append]; omega
  | [], i, v, h, v', x => by simp at h

end Verif.Lifetime
