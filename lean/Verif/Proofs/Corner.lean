import Verif.Model.Connections
import Verif.SpecSurface
import Mathlib.Data.List.Chain
import Mathlib.Logic.Function.Basic

/-!
# The corners of the contours of the components

The connections that are stored at a label are attached to the end points of the intervals with that label.  Here we describe
when two things that are next to each other in the contour of a component really meet in a vertex of the surface.
-/

namespace Verif

set_option linter.unusedSectionVars false

/-- Each connection starts where the previous one ended; the first one starts at the label `l`. -/
def IsChain : Label → List Conn → Prop
  | _, [] => True
  | l, c :: cs => c.source = ⟨l, true⟩ ∧ IsChain c.target.label cs

/-- The label at which a chain of connections that starts at `l` ends. -/
def chainEnd : Label → List Conn → Label
  | l, [] => l
  | _, c :: cs => chainEnd c.target.label cs

theorem chainEnd_append (l : Label) (a b : List Conn) : chainEnd l (a ++ b) = chainEnd (chainEnd l a) b := by
  induction a generalizing l with
  | nil => rfl
  | cons c a ih => exact ih _

theorem isChain_append (l : Label) (a b : List Conn) : IsChain l (a ++ b) ↔ IsChain l a ∧ IsChain (chainEnd l a) b := by
  induction a generalizing l with
  | nil => simp [IsChain, chainEnd]
  | cons c a ih => simp only [List.cons_append, IsChain, chainEnd, ih, and_assoc]

/-- The label at the end of the chain of connections that is stored on the right of the bottom of a label. -/
def ConnMap.endOf (m : ConnMap) (l : Label) : Label := chainEnd l (m.val l).bottomRight

/-! ### Lists -/

theorem chain_move {R R' : Label → Label → Prop} {a b : Label} {l₁ l₂ : List Label} (hn : (b :: (l₁ ++ a :: l₂)).Nodup)
    (h : List.IsChain R (b :: (l₁ ++ a :: l₂))) (keep : ∀ p y, y ≠ a → y ≠ b → R p y → R' p y) (toB : ∀ p, R p a → R' p b)
    (toA : R' b a) : List.IsChain R' (l₁ ++ b :: a :: l₂) := by
  rw [List.nodup_cons, List.nodup_append, List.nodup_cons] at hn
  obtain ⟨h1, h2, ⟨h3, h4⟩, h5⟩ := hn
  simp only [List.mem_append, List.mem_cons, not_or] at h1
  have h' := h.tail
  simp only [List.tail_cons] at h'
  rw [List.isChain_append] at h' ⊢
  refine ⟨h'.1.imp_of_mem_imp (fun p y _ hy => keep p y ?_ ?_), ?_, ?_⟩
  · rintro rfl; exact h5 y hy y (by simp) rfl
  · rintro rfl; exact h1.1 hy
  · rw [List.isChain_cons_cons]
    refine ⟨toA, h'.2.1.imp_of_mem_tail_imp (fun p y _ hy => keep p y ?_ ?_)⟩
    · rintro rfl; exact h3 hy
    · rintro rfl; exact h1.2.2 hy
  · intro x hx y hy
    simp only [List.head?_cons, Option.mem_def, Option.some.injEq] at hy
    subst hy
    exact toB x (h'.2.2 x hx a (by simp))

theorem chain_merge {R R' : Label → Label → Prop} {t b : Label} {l₁ l₂ : List Label} (hn : (b :: (l₁ ++ t :: l₂)).Nodup)
    (h : List.IsChain R (b :: (l₁ ++ t :: l₂))) (keep : ∀ p y, p ≠ b → p ≠ t → y ≠ b → y ≠ t → R p y → R' p y) (toB : ∀ p, p ≠ b → p ≠ t → R p t → R' p b)
    (fromB : ∀ y, y ≠ b → y ≠ t → R t y → R' b y) : List.IsChain R' (l₁ ++ b :: l₂) := by
  rw [List.nodup_cons, List.nodup_append, List.nodup_cons] at hn
  obtain ⟨h1, h2, ⟨h3, h4⟩, h5⟩ := hn
  simp only [List.mem_append, List.mem_cons, not_or] at h1
  have hl₁ : ∀ x ∈ l₁, x ≠ b ∧ x ≠ t := fun x hx =>
    ⟨by rintro rfl; exact h1.1 hx, by rintro rfl; exact h5 x hx x (by simp) rfl⟩
  have hl₂ : ∀ x ∈ l₂, x ≠ b ∧ x ≠ t := fun x hx => ⟨by rintro rfl; exact h1.2.2 hx, by rintro rfl; exact h3 hx⟩
  have h' := h.tail
  simp only [List.tail_cons] at h'
  rw [List.isChain_append, List.isChain_cons] at h' ⊢
  obtain ⟨g1, ⟨g2, g3⟩, g4⟩ := h'
  refine ⟨g1.imp_of_mem_imp (fun p y hp hy => keep p y (hl₁ p hp).1 (hl₁ p hp).2 (hl₁ y hy).1 (hl₁ y hy).2), ⟨?_, ?_⟩, ?_⟩
  · intro y hy
    have := hl₂ y (List.mem_of_head? hy)
    exact fromB y this.1 this.2 (g2 y hy)
  · exact g3.imp_of_mem_imp (fun p y hp hy => keep p y (hl₂ p hp).1 (hl₂ p hp).2 (hl₂ y hy).1 (hl₂ y hy).2)
  · intro x hx y hy
    simp only [List.head?_cons, Option.mem_def, Option.some.injEq] at hy
    subst hy
    have := hl₁ x (List.mem_of_getLast? hx)
    exact toB x this.1 this.2 (g4 x hx t (by simp))

/-! ### Connections above each other -/

/-- Starting with the horizontal ray `z` at the bottom we pass the connections from their lower to their upper end and arrive at the
ray `z'`.  Here, `nb l` and `nt l` are the horizontal rays which leave to the right of the bottom and top interval `l`. -/
def Up (nb nt : Label → Label) : Label → List Conn → Label → Prop
  | z, [], z' => z = z'
  | z, c :: cs, z' => nb c.target.label = z ∧ Up nb nt (nt c.source.label) cs z'

theorem Up.append {nb nt : Label → Label} {z z' z'' : Label} {a b : List Conn} (h : Up nb nt z a z') (h' : Up nb nt z' b z'') :
    Up nb nt z (a ++ b) z'' := by
  induction a generalizing z with
  | nil => cases h; exact h'
  | cons c a ih => exact ⟨h.1, ih h.2⟩

theorem Up.split {nb nt : Label → Label} {z z'' : Label} {a b : List Conn} (h : Up nb nt z (a ++ b) z'') :
    ∃ z', Up nb nt z a z' ∧ Up nb nt z' b z'' := by
  induction a generalizing z with
  | nil => exact ⟨z, rfl, h⟩
  | cons c a ih => obtain ⟨z', h1, h2⟩ := ih h.2; exact ⟨z', ⟨h.1, h1⟩, h2⟩

/-- The contour of a component with the given top and bottom intervals is closed; `lv a` is the ray on which the interval `a` starts. -/
structure Closed (nb nt κ : Label → Label) (m : ConnMap) (lv : Label → Label) (top bottom : List Label) : Prop where
  botRow : List.IsChain (fun p y => Up nb nt (lv y) (m.val y).bottomLeft (nb (m.endOf p))) bottom
  topRow : List.IsChain (fun t x => Up nb nt (nt t) (m.val x).topLeft (lv x)) top
  left : ∀ y x, bottom.head? = some y → top.head? = some x → Up nb nt (lv y) ((m.val y).bottomLeft ++ (m.val x).topLeft) (lv x)
  right : ∀ b t, bottom.getLast? = some b → top.getLast? = some t → κ (m.endOf b) = κ t

/-- The entry after a label in a list; some label if there is none. -/
def succIn : List Label → Label → Label
  | x :: y :: l, a => if x = a then y else succIn (y :: l) a
  | _, a => a

theorem succIn_infix : ∀ {l : List Label} {a : Label}, a ∈ l.dropLast → [a, succIn l a] <:+: l
  | [], a, h => by simp at h
  | [x], a, h => by simp at h
  | x :: y :: l, a, h => by
    rw [succIn]
    split
    · next e => subst e; exact ⟨[], l, by simp⟩
    · next e =>
      simp only [List.dropLast_cons_cons, List.mem_cons] at h
      rcases h with h | h
      · exact absurd h.symm e
      · exact (succIn_infix h).trans ⟨[x], [], by simp⟩

theorem succIn_eq : ∀ {l : List Label}, l.Nodup → List.IsChain (fun p y => succIn l p = y) l
  | [], _ => .nil
  | [x], _ => .singleton _
  | x :: y :: l, h => by
    rw [List.isChain_cons_cons]
    refine ⟨by rw [succIn, if_pos rfl], ?_⟩
    have h' := (List.nodup_cons.mp h)
    refine (succIn_eq h'.2).imp_of_mem_imp ?_
    intro p z hp _ e
    rw [succIn, if_neg (by rintro rfl; exact h'.1 hp)]
    exact e

/-- The ray that leaves to the right of the bottom interval `l`. -/
def afterBottom (top bottom : List Label) (l : Label) : Label := leftmost top bottom (succIn bottom l)

/-- The ray that leaves to the right of the top interval `l`. -/
def afterTop (top bottom : List Label) (l : Label) : Label := leftmost top bottom (succIn top l)

/-- The contour of a component of the decomposition of an IET is closed. -/
abbrev ClosedIn (top₀ bottom₀ : List Label) (m : ConnMap) (lv : Label → Label) (top bottom : List Label) : Prop :=
  Closed (afterBottom top₀ bottom₀) (afterTop top₀ bottom₀) (rightmost top₀ bottom₀) m lv top bottom

theorem ClosedIn.init {top bottom : List Label} {m : ConnMap} (hm : ∀ l, m.val l = {}) (hn : top.Nodup) (hn' : bottom.Nodup) :
    ClosedIn top bottom m (leftmost top bottom) top bottom := by
  have he : ∀ l, m.endOf l = l := fun l => by simp [ConnMap.endOf, hm, chainEnd]
  refine ⟨(succIn_eq hn').imp ?_, (succIn_eq hn).imp ?_, ?_, ?_⟩
  · intro p y h
    rw [hm, he, ← h]; rfl
  · intro t x h
    rw [hm, ← h]; rfl
  · intro y x hy hx
    rw [hm, hm]
    show leftmost top bottom y = leftmost top bottom x
    unfold leftmost
    rw [hy, hx]
    simp
  · intro b t hb ht
    rw [he]
    unfold rightmost
    rw [hb, ht]
    simp

variable {nb nt κ : Label → Label} {m m' : ConnMap} {lv lv' : Label → Label} {top bottom : List Label}

theorem Closed.congr (h : Closed nb nt κ m lv top bottom) (hp : bottom.Perm top) (hm : ∀ x ∈ top, m'.val x = m.val x)
    (hl : ∀ x ∈ top, lv' x = lv x) : Closed nb nt κ m' lv' top bottom := by
  have hm' : ∀ x ∈ bottom, m'.val x = m.val x := fun x hx => hm x (hp.mem_iff.mp hx)
  have hl' : ∀ x ∈ bottom, lv' x = lv x := fun x hx => hl x (hp.mem_iff.mp hx)
  refine ⟨h.botRow.imp_of_mem_imp ?_, h.topRow.imp_of_mem_imp ?_, ?_, ?_⟩
  · intro p y hp hy h'
    simpa only [ConnMap.endOf, hm' p hp, hm' y hy, hl' y hy] using h'
  · intro t x _ hx h'
    simpa only [hm x hx, hl x hx] using h'
  · intro y x hy hx
    have := h.left y x hy hx
    have hy' := List.mem_of_head? hy
    have hx' := List.mem_of_head? hx
    simpa only [hm' y hy', hm x hx', hl' y hy', hl x hx'] using this
  · intro b t hb ht
    have := h.right b t hb ht
    simpa only [ConnMap.endOf, hm' b (List.mem_of_getLast? hb)] using this

/-- The values after splicing. -/
theorem LWC.splice_val (onTop : Bool) {a b : Label} (hab : a ≠ b) (m : ConnMap) :
    (∀ l, l ≠ a → l ≠ b → (LWC.splice onTop a b m).val l = m.val l) ∧
    (LWC.splice onTop a b m).val a = { m.val a with topLeft := [], bottomLeft := [] } ∧
    (LWC.splice onTop a b m).val b = if onTop then
      { m.val b with bottomLeft := (m.val b).bottomLeft ++ (m.val a).topLeft ++ (m.val a).bottomLeft }
      else { m.val b with topLeft := (m.val a).topLeft ++ ((m.val a).bottomLeft ++ (m.val b).topLeft) } := by
  refine ⟨?_, ?_, ?_⟩
  · intro l h1 h2
    unfold LWC.splice
    split <;> simp [ConnMap.set, h1, h2]
  · unfold LWC.splice
    split <;> simp [ConnMap.set, hab]
  · unfold LWC.splice
    split <;> simp [ConnMap.set]

theorem LWC.splice_endOf (onTop : Bool) {a b : Label} (hab : a ≠ b) (m : ConnMap) (l : Label) :
    (LWC.splice onTop a b m).endOf l = m.endOf l := by
  obtain ⟨h1, h2, h3⟩ := LWC.splice_val onTop hab m
  unfold ConnMap.endOf
  by_cases ha : l = a
  · subst ha; rw [h2]
  · by_cases hb : l = b
    · subst hb; rw [h3]; split <;> rfl
    · rw [h1 l ha hb]

/-- A step of Rauzy induction in which the first top interval is shortened. -/
theorem Closed.stepTop {a b : Label} {t l₁ l₂ : List Label} (hn : (b :: (l₁ ++ a :: l₂)).Nodup) (hn' : (a :: t).Nodup)
    (h : Closed nb nt κ m lv (a :: t) (b :: (l₁ ++ a :: l₂))) :
    Closed nb nt κ (LWC.splice true a b m) (Function.update lv a (nb (m.endOf b))) (a :: t) (l₁ ++ b :: a :: l₂) := by
  have hab : a ≠ b := by rintro rfl; simp at hn
  obtain ⟨v1, v2, v3⟩ := LWC.splice_val true hab m
  simp only [if_true] at v3
  have ve := LWC.splice_endOf true hab m
  have hlva : Function.update lv a (nb (m.endOf b)) a = nb (m.endOf b) := by simp
  have hlv : ∀ x, x ≠ a → Function.update lv a (nb (m.endOf b)) x = lv x := fun x hx => by simp [hx]
  have hL := h.left b a rfl rfl
  refine ⟨?_, ?_, ?_, ?_⟩
  · refine chain_move hn h.botRow ?_ ?_ ?_
    · intro p y h1 h2 h3
      rwa [v1 y h1 h2, ve, hlv y h1]
    · intro p hp
      rw [v3, hlv b hab.symm, ve]
      exact hL.append hp
    · rw [v2, hlva, ve]; rfl
  · refine h.topRow.imp_of_mem_tail_imp ?_
    intro x y _ hy h'
    have hya : y ≠ a := by rintro rfl; exact (List.nodup_cons.mp hn').1 hy
    rw [hlv y hya]
    by_cases hb : y = b
    · subst hb; rw [v3]; exact h'
    · rwa [v1 y hya hb]
  · intro y x hy hx
    simp only [List.head?_cons, Option.some.injEq] at hx
    subst hx
    rw [v2, hlva, List.append_nil]
    cases l₁ with
    | nil =>
      simp only [List.nil_append, List.head?_cons, Option.some.injEq] at hy
      subst hy
      rw [v3, hlv _ hab.symm]
      have := h.botRow
      simp only [List.nil_append, List.isChain_cons_cons] at this
      exact hL.append this.1
    | cons z l₁ =>
      simp only [List.cons_append, List.head?_cons, Option.some.injEq] at hy
      subst hy
      have := h.botRow
      simp only [List.cons_append, List.isChain_cons_cons] at this
      simp only [List.cons_append, List.nodup_cons, List.mem_cons, List.mem_append, not_or] at hn
      rw [v1 z (fun h => hn.2.1.2.1 h) (fun h => hn.1.1 h.symm), hlv z (fun h => hn.2.1.2.1 h)]
      exact this.1
  · intro x y hx hy
    rw [ve]
    refine h.right x y ?_ hy
    have e1 : (l₁ ++ b :: a :: l₂).getLast? = (a :: l₂).getLast? := by rw [List.getLast?_append_cons, List.getLast?_cons_cons]
    have e2 : (b :: (l₁ ++ a :: l₂)).getLast? = (a :: l₂).getLast? := by
      rw [← List.cons_append, List.getLast?_append_cons]
    rw [e2, ← e1]; exact hx

/-- A step of Rauzy induction in which the first bottom interval is shortened. -/
theorem Closed.stepBottom {a b : Label} {t l₁ l₂ : List Label} (hn : (b :: (l₁ ++ a :: l₂)).Nodup) (hn' : (a :: t).Nodup)
    (h : Closed nb nt κ m lv (b :: (l₁ ++ a :: l₂)) (a :: t)) :
    Closed nb nt κ (LWC.splice false a b m) (Function.update lv a (nt b)) (l₁ ++ b :: a :: l₂) (a :: t) := by
  have hab : a ≠ b := by rintro rfl; simp at hn
  obtain ⟨v1, v2, v3⟩ := LWC.splice_val false hab m
  simp only [Bool.false_eq_true, if_false] at v3
  have ve := LWC.splice_endOf false hab m
  have hlva : Function.update lv a (nt b) a = nt b := by simp
  have hlv : ∀ x, x ≠ a → Function.update lv a (nt b) x = lv x := fun x hx => by simp [hx]
  have hL := h.left a b rfl rfl
  refine ⟨?_, ?_, ?_, ?_⟩
  · refine h.botRow.imp_of_mem_tail_imp ?_
    intro x y _ hy h'
    have hya : y ≠ a := by rintro rfl; exact (List.nodup_cons.mp hn').1 hy
    rw [hlv y hya, ve]
    by_cases hb : y = b
    · subst hb; rw [v3]; exact h'
    · rwa [v1 y hya hb]
  · refine chain_move hn h.topRow ?_ ?_ ?_
    · intro p y h1 h2 h3
      rwa [v1 y h1 h2, hlv y h1]
    · intro p hp
      rw [v3, hlv b hab.symm]
      exact hp.append hL
    · rw [v2, hlva]; rfl
  · intro y x hy hx
    simp only [List.head?_cons, Option.some.injEq] at hy
    subst hy
    rw [v2, hlva, List.nil_append]
    cases l₁ with
    | nil =>
      simp only [List.nil_append, List.head?_cons, Option.some.injEq] at hx
      subst hx
      rw [v3, hlv _ hab.symm]
      have := h.topRow
      simp only [List.nil_append, List.isChain_cons_cons] at this
      exact this.1.append hL
    | cons z l₁ =>
      simp only [List.cons_append, List.head?_cons, Option.some.injEq] at hx
      subst hx
      have := h.topRow
      simp only [List.cons_append, List.isChain_cons_cons] at this
      simp only [List.cons_append, List.nodup_cons, List.mem_cons, List.mem_append, not_or] at hn
      rw [v1 z (fun h => hn.2.1.2.1 h) (fun h => hn.1.1 h.symm), hlv z (fun h => hn.2.1.2.1 h)]
      exact this.1
  · intro x y hx hy
    rw [ve]
    refine h.right x y hx ?_
    have e1 : (l₁ ++ b :: a :: l₂).getLast? = (a :: l₂).getLast? := by rw [List.getLast?_append_cons, List.getLast?_cons_cons]
    have e2 : (b :: (l₁ ++ a :: l₂)).getLast? = (a :: l₂).getLast? := by
      rw [← List.cons_append, List.getLast?_append_cons]
    rw [e2, ← e1]; exact hy

/-- A component is split in two. -/
theorem Closed.cut {l r l' r' : List Label} {b t y : Label} (hn' : (l' ++ r').Nodup) 
    (h : Closed nb nt κ m lv (l ++ r) (l' ++ r')) (hb : l'.getLast? = some b) (ht : l.getLast? = some t) (hy : r'.head? = some y)
    {conn : Conn} (hconn : conn = ⟨⟨m.endOf b, true⟩, ⟨t, false⟩⟩)
    (hmb : m'.val b = { m.val b with bottomRight := (m.val b).bottomRight ++ [conn] })
    (hmy : m'.val y = { m.val y with bottomLeft := (m.val y).bottomLeft ++ [conn.neg] })
    (hmx : ∀ x, x ≠ b → x ≠ y → m'.val x = m.val x) :
    Closed nb nt κ m' lv l l' ∧ Closed nb nt κ m' lv r r' := by
  have hd : ∀ x ∈ l', x ∉ r' := fun x hx hx' => (List.nodup_append.mp hn').2.2 x hx x hx' rfl
  have hbl := List.mem_of_getLast? hb
  have hyr := List.mem_of_head? hy
  have hby : b ≠ y := by rintro rfl; exact hd b hbl hyr
  have hl : ∀ x ∈ l', x ≠ y := by rintro x hx rfl; exact hd x hx hyr
  have hr : ∀ x ∈ r', x ≠ b := by rintro x hx rfl; exact hd x hbl hx
  have htl : ∀ x, (m'.val x).topLeft = (m.val x).topLeft := by
    intro x
    by_cases h1 : x = b
    · subst h1; rw [hmb]
    · by_cases h2 : x = y
      · subst h2; rw [hmy]
      · rw [hmx x h1 h2]
  have hbl' : ∀ x, x ≠ y → (m'.val x).bottomLeft = (m.val x).bottomLeft := by
    intro x h2
    by_cases h1 : x = b
    · subst h1; rw [hmb]
    · rw [hmx x h1 h2]
  have he : ∀ x, x ≠ b → m'.endOf x = m.endOf x := by
    intro x h1
    unfold ConnMap.endOf
    by_cases h2 : x = y
    · subst h2; rw [hmy]
    · rw [hmx x h1 h2]
  have heb : m'.endOf b = t := by
    unfold ConnMap.endOf
    rw [hmb, chainEnd_append, hconn]; rfl
  obtain ⟨b1, b2, b3⟩ := List.isChain_append.mp h.botRow
  obtain ⟨t1, t2, t3⟩ := List.isChain_append.mp h.topRow
  obtain ⟨l'', rfl⟩ := List.getLast?_eq_some_iff.mp hb
  have hbn : b ∉ l'' := by
    have := (List.nodup_append.mp hn').1
    rw [List.nodup_append] at this
    exact fun hx => this.2.2 b hx b (by simp) rfl
  refine ⟨⟨?_, ?_, ?_, ?_⟩, ⟨?_, ?_, ?_, ?_⟩⟩
  · rw [List.isChain_iff_forall₂] at b1 ⊢
    rw [List.dropLast_concat] at b1 ⊢
    rw [List.forall₂_iff_zip] at b1 ⊢
    refine ⟨b1.1, fun {p y'} hz => ?_⟩
    have hp1 := (List.of_mem_zip hz).1
    have hy1 := List.mem_of_mem_tail (List.of_mem_zip hz).2
    have := b1.2 hz
    rwa [he p (by rintro rfl; exact hbn hp1), hbl' y' (hl y' hy1)]
  · simpa only [htl] using t1
  · intro y' x hy' hx
    have := h.left y' x (by simp only [List.head?_append, hy', Option.or]) (by simp only [List.head?_append, hx, Option.or])
    rwa [htl, hbl' y' (hl y' (List.mem_of_head? hy'))]
  · intro b' t' hb' ht'
    rw [hb] at hb'; rw [ht] at ht'
    cases hb'; cases ht'
    rw [heb]
  · refine b2.imp_of_mem_tail_imp ?_
    intro p y' hp1 hy1 h'
    have hne : y' ≠ y := by
      rintro rfl
      have := (List.nodup_append.mp hn').2.1
      cases r' with
      | nil => cases hyr
      | cons z r' =>
        simp only [List.head?_cons, Option.some.injEq] at hy
        subst hy
        exact (List.nodup_cons.mp this).1 hy1
    rwa [he p (hr p hp1), hbl' y' hne]
  · simpa only [htl] using t2
  · intro y' x hy' hx
    rw [hy] at hy'; cases hy'
    have h1 := b3 b hb y hy
    have h2 := t3 t ht x hx
    rw [hmy, htl, hconn]
    simp only [List.append_assoc]
    exact h1.append ⟨rfl, h2⟩
  · intro b' t' hb' ht'
    rw [he b' (hr b' (List.mem_of_getLast? hb'))]
    exact h.right b' t' (by simp only [List.getLast?_append, hb', Option.or]) (by simp only [List.getLast?_append, ht', Option.or])

/-- The first top and the first bottom interval have the same length. -/
theorem Closed.merge {t b f : Label} {top l₁ l₂ : List Label} (hn : (b :: (l₁ ++ t :: l₂)).Nodup) (hn' : (t :: top).Nodup)
    (h : Closed nb nt κ m lv (t :: top) (b :: (l₁ ++ t :: l₂))) (hf : top.head? = some f)
    {conn : Conn} (hconn : conn = ⟨⟨m.endOf b, true⟩, ⟨t, false⟩⟩)
    (hmb : (m'.val b).bottomRight = (m.val b).bottomRight ++ ([conn] ++ (m.val t).bottomRight))
    (hmb' : (m'.val b).bottomLeft = (m.val b).bottomLeft ++ (m.val t).topLeft ++ (m.val t).bottomLeft)
    (hmf : (m'.val f).topLeft = conn.neg :: (m.val f).topLeft)
    (hm1 : ∀ x, x ≠ b → x ≠ t → (m'.val x).bottomRight = (m.val x).bottomRight)
    (hm2 : ∀ x, x ≠ b → x ≠ t → (m'.val x).bottomLeft = (m.val x).bottomLeft)
    (hm3 : ∀ x, x ≠ f → x ≠ t → (m'.val x).topLeft = (m.val x).topLeft) :
    Closed nb nt κ m' lv top (l₁ ++ b :: l₂) := by
  have hbt : b ≠ t := by rintro rfl; simp at hn
  have heb : m'.endOf b = m.endOf t := by
    simp only [ConnMap.endOf, hmb, chainEnd_append]
    simp only [chainEnd, hconn]
  have he : ∀ x, x ≠ b → x ≠ t → m'.endOf x = m.endOf x := fun x hx hx' => by simp only [ConnMap.endOf, hm1 x hx hx']
  have hL := h.left b t rfl rfl
  have htop := h.topRow
  have htt : ∀ x ∈ top, x ≠ t := by rintro x hx rfl; exact (List.nodup_cons.mp hn').1 hx
  cases top with
  | nil => cases hf
  | cons f' top =>
    simp only [List.head?_cons, Option.some.injEq] at hf
    subst hf
    rw [List.isChain_cons_cons] at htop
    refine ⟨?_, ?_, ?_, ?_⟩
    · refine chain_merge hn h.botRow ?_ ?_ ?_
      · intro p y h1 h2 h3 h4 h5
        rwa [hm2 y h3 h4, he p h1 h2]
      · intro p h1 h2 h3
        rw [hmb', he p h1 h2]
        exact hL.append h3
      · intro y h1 h2 h3
        rwa [hm2 y h1 h2, heb]
    · refine htop.2.imp_of_mem_tail_imp ?_
      intro p x _ hx h'
      rwa [hm3 x ?_ (htt x (List.mem_of_mem_tail hx))]
      rintro rfl
      rw [List.nodup_cons, List.nodup_cons] at hn'
      exact hn'.2.1 hx
    · intro y x hy hx
      simp only [List.head?_cons, Option.some.injEq] at hx
      subst hx
      rw [hmf]
      have h2 : Up nb nt (nb (m.endOf b)) (conn.neg :: (m.val f').topLeft) (lv f') := by
        rw [hconn]; exact ⟨rfl, htop.1⟩
      cases l₁ with
      | nil =>
        simp only [List.nil_append, List.head?_cons, Option.some.injEq] at hy
        subst hy
        rw [hmb']
        have := h.botRow
        simp only [List.nil_append, List.isChain_cons_cons] at this
        exact (hL.append this.1).append h2
      | cons z l₁ =>
        simp only [List.cons_append, List.head?_cons, Option.some.injEq] at hy
        subst hy
        have := h.botRow
        simp only [List.cons_append, List.isChain_cons_cons] at this
        simp only [List.cons_append, List.nodup_cons, List.mem_cons, List.mem_append, not_or] at hn
        rw [hm2 z (fun h => hn.1.1 h.symm) (fun h => hn.2.1.2.1 h)]
        exact this.1.append h2
    · intro x y hx hy
      have e1 : (l₁ ++ b :: l₂).getLast? = (b :: l₂).getLast? := List.getLast?_append_cons _ _ _
      have e2 : (b :: (l₁ ++ t :: l₂)).getLast? = (t :: l₂).getLast? := by
        rw [← List.cons_append, List.getLast?_append_cons]
      have hy' : (t :: f' :: top).getLast? = some y := by rw [List.getLast?_cons_cons]; exact hy
      rw [e1] at hx
      cases l₂ with
      | nil =>
        simp only [List.getLast?_singleton, Option.some.injEq] at hx
        subst hx
        rw [heb]
        exact h.right t y (by rw [e2]; rfl) hy'
      | cons z l₂ =>
        rw [List.getLast?_cons_cons] at hx
        have hx' := List.mem_of_getLast? hx
        rw [he x]
        · exact h.right x y (by rw [e2, List.getLast?_cons_cons]; exact hx) hy'
        · rintro rfl
          simp only [List.nodup_cons, List.mem_append, List.mem_cons, not_or] at hn
          simp only [List.mem_cons] at hx'
          tauto
        · rintro rfl
          rw [List.nodup_cons, List.nodup_append, List.nodup_cons] at hn
          exact hn.2.2.1.1 hx'

end Verif
