import Verif.Proofs.Primitive
import Verif.Proofs.Saf
import Verif.Proofs.Corner
import Verif.Model.Connections

/-!
# The pieces of a decomposition and the connections between them
-/

namespace Verif

set_option linter.unusedSectionVars false

/-! ### Lists -/

theorem set_perm_cons {α : Type} : ∀ {l : List α} {i : ℕ} {x : α} (y : α), l[i]? = some x → (l.set i y).Perm (y :: l.eraseIdx i)
  | a :: l, 0, x, y, _ => by simp
  | a :: l, i + 1, x, y, h => by
    simp only [List.set_cons_succ, List.eraseIdx_cons_succ]
    exact ((set_perm_cons y (by simpa using h)).cons a).trans (.swap _ _ _)

theorem perm_cons_eraseIdx {α : Type} {l : List α} {i : ℕ} {x : α} (h : l[i]? = some x) : l.Perm (x :: l.eraseIdx i) := by
  have h1 := set_perm_cons x h
  obtain ⟨hi, rfl⟩ := List.getElem?_eq_some_iff.mp h
  rwa [List.set_getElem_self] at h1

theorem flatMap_erase {α β : Type} [DecidableEq α] {K : List α} {a : α} (ha : a ∈ K) (f : α → List β) :
    (K.flatMap f).Perm (f a ++ (K.erase a).flatMap f) := by
  have := (List.perm_cons_erase ha).flatMap_right f
  simpa using this

theorem flatMap_congr' {α β : Type} {K : List α} {f g : α → List β} (h : ∀ a ∈ K, f a = g a) : K.flatMap f = K.flatMap g := by
  induction K with
  | nil => rfl
  | cons a K ih =>
    simp only [List.flatMap_cons]
    rw [h a (by simp), ih (fun x hx => h x (List.mem_cons_of_mem _ hx))]

/-- Changing the value at one label. -/
theorem flatMap_update {α β : Type} [DecidableEq α] [DecidableEq β] {K : List α} (hK : K.Nodup) {a : α} (ha : a ∈ K) {f g : α → List β}
    (h : ∀ x, x ≠ a → g x = f x) (x : β) : (K.flatMap g).count x + (f a).count x = (K.flatMap f).count x + (g a).count x := by
  have h1 := (flatMap_erase ha f).count_eq x
  have h2 := (flatMap_erase ha g).count_eq x
  have h3 : (K.erase a).flatMap g = (K.erase a).flatMap f := flatMap_congr' (fun y hy => h y (by
    rintro rfl
    exact (hK.not_mem_erase) hy))
  rw [h3] at h2
  simp only [List.count_append] at h1 h2
  omega

/-- The connections stored on the left of a label. -/
def leftOf (c : Conns) : List Conn := c.topLeft ++ c.bottomLeft

/-- Only connections that are stored on the left have been moved between the labels in `S`. -/
structure LeftMoved (S : Label → Prop) (m m' : ConnMap) : Prop where
  keys : m'.keys = m.keys
  topRight : ∀ l, (m'.val l).topRight = (m.val l).topRight
  bottomRight : ∀ l, (m'.val l).bottomRight = (m.val l).bottomRight
  out : ∀ l, ¬ S l → m'.val l = m.val l
  perm : ∀ K : List Label, K.Nodup → (∀ a, S a → a ∈ K) → (K.flatMap (fun l => leftOf (m'.val l))).Perm (K.flatMap (fun l => leftOf (m.val l)))

theorem LeftMoved.refl {S : Label → Prop} (m : ConnMap) : LeftMoved S m m :=
  ⟨rfl, fun _ => rfl, fun _ => rfl, fun _ _ => rfl, fun _ _ _ => .refl _⟩

theorem LeftMoved.trans {S : Label → Prop} {m m' m'' : ConnMap} (h : LeftMoved S m m') (h' : LeftMoved S m' m'') : LeftMoved S m m'' where
  keys := h'.keys.trans h.keys
  topRight l := (h'.topRight l).trans (h.topRight l)
  bottomRight l := (h'.bottomRight l).trans (h.bottomRight l)
  out l hl := (h'.out l hl).trans (h.out l hl)
  perm K hK hS := (h'.perm K hK hS).trans (h.perm K hK hS)

theorem LeftMoved.mono {S S' : Label → Prop} {m m' : ConnMap} (h : LeftMoved S m m') (hS : ∀ a, S a → S' a) : LeftMoved S' m m' where
  keys := h.keys
  topRight := h.topRight
  bottomRight := h.bottomRight
  out l hl := h.out l (fun h' => hl (hS l h'))
  perm K hK hS' := h.perm K hK (fun a ha => hS' a (hS a ha))

theorem LWC.splice_leftMoved {S : Label → Prop} (onTop : Bool) {a b : Label} (hab : a ≠ b) (ha : S a) (hb : S b) (m : ConnMap) :
    LeftMoved S m (LWC.splice onTop a b m) := by
  have hval : ∀ l, l ≠ a → l ≠ b → (LWC.splice onTop a b m).val l = m.val l := by
    intro l h1 h2
    unfold LWC.splice
    split <;> simp [ConnMap.set, h1, h2]
  have hva : (LWC.splice onTop a b m).val a = { m.val a with topLeft := [], bottomLeft := [] } := by
    unfold LWC.splice
    split <;> simp [ConnMap.set, hab]
  have hvb : (LWC.splice onTop a b m).val b = if onTop then
      { m.val b with bottomLeft := (m.val b).bottomLeft ++ (m.val a).topLeft ++ (m.val a).bottomLeft }
      else { m.val b with topLeft := (m.val a).topLeft ++ ((m.val a).bottomLeft ++ (m.val b).topLeft) } := by
    unfold LWC.splice
    split <;> simp [ConnMap.set]
  have hr : ∀ l, ((LWC.splice onTop a b m).val l).topRight = (m.val l).topRight ∧
      ((LWC.splice onTop a b m).val l).bottomRight = (m.val l).bottomRight := by
    intro l
    by_cases h1 : l = a
    · subst h1; rw [hva]; exact ⟨rfl, rfl⟩
    · by_cases h2 : l = b
      · subst h2; rw [hvb]; split <;> exact ⟨rfl, rfl⟩
      · rw [hval l h1 h2]; exact ⟨rfl, rfl⟩
  refine ⟨by unfold LWC.splice; split <;> rfl, fun l => (hr l).1, fun l => (hr l).2, ?_, ?_⟩
  · intro l hl
    exact hval l (by rintro rfl; exact hl ha) (by rintro rfl; exact hl hb)
  · intro K hK hS
    have ha' := hS a ha
    have hb' : b ∈ K.erase a := (List.mem_erase_of_ne (Ne.symm hab)).mpr (hS b hb)
    rw [List.perm_iff_count]
    intro x
    have e1 := (flatMap_erase ha' (fun l => leftOf (m.val l))).count_eq x
    have e2 := (flatMap_erase ha' (fun l => leftOf ((LWC.splice onTop a b m).val l))).count_eq x
    have e3 := (flatMap_erase hb' (fun l => leftOf (m.val l))).count_eq x
    have e4 := (flatMap_erase hb' (fun l => leftOf ((LWC.splice onTop a b m).val l))).count_eq x
    have e5 : ((K.erase a).erase b).flatMap (fun l => leftOf ((LWC.splice onTop a b m).val l)) =
        ((K.erase a).erase b).flatMap (fun l => leftOf (m.val l)) := flatMap_congr' (fun y hy => by
      rw [hval y]
      · rintro rfl; exact hK.not_mem_erase (List.mem_of_mem_erase hy)
      · rintro rfl; exact (hK.erase a).not_mem_erase hy)
    rw [e5] at e4
    simp only [List.count_append, hva, hvb] at e1 e2 e3 e4
    have e6 : (leftOf (if onTop then
        { m.val b with bottomLeft := (m.val b).bottomLeft ++ (m.val a).topLeft ++ (m.val a).bottomLeft }
        else { m.val b with topLeft := (m.val a).topLeft ++ ((m.val a).bottomLeft ++ (m.val b).topLeft) })).count x =
        (leftOf (m.val a)).count x + (leftOf (m.val b)).count x := by
      cases onTop <;> simp only [leftOf, if_true, Bool.false_eq_true, if_false, List.count_append] <;> omega
    rw [e6] at e4
    have e7 : (leftOf { m.val a with topLeft := [], bottomLeft := [] }).count x = 0 := rfl
    rw [e7] at e2
    omega

section track

variable {P : Type} [CommRing P] [LinearOrder P] [IsStrictOrderedRing P]

theorem Covers.perm {A₀ : AIET P} {pieces pieces' : List (P × AIET P)} (h : Covers A₀ pieces) (hp : pieces.Perm pieces') :
    Covers A₀ pieces' where
  valid p hp' := h.valid p (hp.mem_iff.mpr hp')
  inside p hp' := h.inside p (hp.mem_iff.mpr hp')
  maps p hp' := h.maps p (hp.mem_iff.mpr hp')
  meets x h0 h1 := by
    obtain ⟨p, h2, h3⟩ := h.meets x h0 h1
    exact ⟨p, hp.mem_iff.mp h2, h3⟩
  separate := (hp.pairwise_iff (fun h x y hx hy => (h y x hy hx).symm)).mp h.separate

/-- The IET `A₀` has been decomposed into the given pieces (at the given offsets), `m` are the connections that are stored and
`R` the connections that have been reported. -/
structure Track (A₀ : AIET P) (pieces : List (P × AIET P)) (m : ConnMap) (R : List Conn) : Prop where
  base : A₀.Valid
  cover : Covers A₀ pieces
  disjoint : pieces.Pairwise (fun p q => ∀ a ∈ p.2.top, a ∉ q.2.top)
  keys : m.keys = A₀.top
  mem : ∀ p ∈ pieces, ∀ a ∈ p.2.top, a ∈ A₀.top
  topRight : ∀ l, (m.val l).topRight = []
  chain : ∀ l, IsChain l (m.val l).bottomRight
  gone : ∀ l, (∀ p ∈ pieces, l ∉ p.2.top) → m.val l = {}
  right : (A₀.top.flatMap (fun l => (m.val l).bottomRight)).Perm R
  left : (A₀.top.flatMap (fun l => leftOf (m.val l))).Perm (R.map Conn.neg)
  shape : ∀ c ∈ R, c.source.parallel = true ∧ c.target.parallel = false
  sources : (pieces.flatMap (fun p => p.2.bottom.dropLast.map m.endOf) ++ R.map (fun c => c.source.label)).Perm A₀.bottom.dropLast
  targets : (pieces.flatMap (fun p => p.2.top.dropLast) ++ R.map (fun c => c.target.label)).Perm A₀.top.dropLast
  primBot : ∀ p ∈ pieces, ∀ b ∈ p.2.bottom.dropLast,
    Relation.ReflTransGen (A₀.PreStep (Interior p)) (A₀.rightBottom (m.endOf b)) (p.2.rightBottom b + p.1)
  primTop : ∀ p ∈ pieces, ∀ t ∈ p.2.top.dropLast,
    Relation.ReflTransGen (A₀.PostStep (Interior p)) (p.2.rightTop t + p.1) (A₀.rightTop t)
  primSaddles : ∀ c ∈ R, Relation.ReflTransGen (fun x z => A₀.Inner x ∧ A₀.Maps x z) (A₀.rightBottom c.source.label) (A₀.rightTop c.target.label)
  towers : ∃ w, Towers A₀ pieces w
  saf : ∀ φ ψ : P →+ ℚ, A₀.saf φ ψ = (pieces.map (fun p => p.2.saf φ ψ)).sum
  closed : ∃ lv, ∀ p ∈ pieces, ClosedIn A₀.top A₀.bottom m lv p.2.top p.2.bottom
  ends : ∀ p ∈ pieces, p.2.total + p.1 = A₀.total ∨
    ∃ t ∈ A₀.top.dropLast, Relation.ReflTransGen A₀.Maps (p.2.total + p.1) (A₀.rightTop t)
  starts : ∀ p ∈ pieces, LeftEnd A₀ p

variable {A₀ : AIET P} {pieces : List (P × AIET P)} {m : ConnMap} {R : List Conn}

theorem Track.geoBot (h : Track A₀ pieces m R) : ∀ p ∈ pieces, ∀ b ∈ p.2.bottom.dropLast,
    Relation.ReflTransGen A₀.Maps (A₀.rightBottom (m.endOf b)) (p.2.rightBottom b + p.1) :=
  fun p hp b hb => Relation.ReflTransGen.mono (fun _ _ h => h.1) _ _ (h.primBot p hp b hb)

theorem Track.geoTop (h : Track A₀ pieces m R) : ∀ p ∈ pieces, ∀ t ∈ p.2.top.dropLast,
    Relation.ReflTransGen A₀.Maps (p.2.rightTop t + p.1) (A₀.rightTop t) :=
  fun p hp t ht => Relation.ReflTransGen.mono (fun _ _ h => h.1) _ _ (h.primTop p hp t ht)

theorem Track.saddles (h : Track A₀ pieces m R) : ∀ c ∈ R,
    Relation.ReflTransGen A₀.Maps (A₀.rightBottom c.source.label) (A₀.rightTop c.target.label) :=
  fun c hc => Relation.ReflTransGen.mono (fun _ _ h => h.2) _ _ (h.primSaddles c hc)

theorem preSteps_inner {A : AIET P} {S S' : P → Prop} {x y z : P} (h : Relation.ReflTransGen (A.PreStep S) x y)
    (h' : Relation.ReflTransGen (A.PostStep S') y z) : Relation.ReflTransGen (fun x z => A.Inner x ∧ A.Maps x z) x z :=
  (Relation.ReflTransGen.mono (fun _ _ h => ⟨h.2.1, h.1⟩) _ _ h).trans (Relation.ReflTransGen.mono (fun _ _ h => ⟨h.2.1, h.1⟩) _ _ h')

theorem Track.init (h : A₀.Valid) (hk : m.keys = A₀.top) (hv : ∀ l, m.val l = {}) : Track A₀ [(0, A₀)] m [] := by
  have he : ∀ l, m.endOf l = l := fun l => by simp [ConnMap.endOf, hv, chainEnd]
  have hf : ∀ (f : Conns → List Conn) (K : List Label), f {} = [] → K.flatMap (fun l => f (m.val l)) = [] := by
    intro f K hf
    rw [List.flatMap_eq_nil_iff]
    intro l _
    rw [hv, hf]
  refine ⟨h, .init h, List.pairwise_singleton _ _, hk, by simp, by simp [hv], by simp [hv, IsChain], fun l _ => hv l, ?_, ?_, by simp, ?_, ?_,
    ?_, ?_, by simp, ⟨_, .init A₀ h⟩, by simp, ⟨leftmost A₀.top A₀.bottom, by
      simpa using ClosedIn.init (top := A₀.top) (bottom := A₀.bottom) hv h.nodup h.inv.nodup⟩, by simp, by simp [LeftEnd]⟩
  · rw [hf (fun c => c.bottomRight) _ rfl]
  · rw [hf leftOf _ rfl]; simp
  · simp only [List.flatMap_cons, List.flatMap_nil, List.append_nil, List.map_nil]
    rw [show A₀.bottom.dropLast.map m.endOf = A₀.bottom.dropLast.map id from List.map_congr_left (fun x _ => he x), List.map_id]
  · simp
  · simp only [List.mem_singleton, forall_eq, add_zero]
    intro b _; rw [he]
  · simp only [List.mem_singleton, forall_eq, add_zero]
    intro b _; exact .refl

theorem Track.perm {pieces' : List (P × AIET P)} (h : Track A₀ pieces m R) (hp : pieces.Perm pieces') : Track A₀ pieces' m R where
  base := h.base
  cover := h.cover.perm hp
  disjoint := (hp.pairwise_iff (fun h a ha ha' => h a ha' ha)).mp h.disjoint
  keys := h.keys
  mem p hp' := h.mem p (hp.mem_iff.mpr hp')
  topRight := h.topRight
  chain := h.chain
  gone l hl := h.gone l (fun p hp' => hl p (hp.mem_iff.mp hp'))
  right := h.right
  left := h.left
  shape := h.shape
  sources := (((hp.flatMap_right _).symm).append_right _).trans h.sources
  targets := (((hp.flatMap_right _).symm).append_right _).trans h.targets
  primBot p hp' := h.primBot p (hp.mem_iff.mpr hp')
  primTop p hp' := h.primTop p (hp.mem_iff.mpr hp')
  primSaddles := h.primSaddles
  towers := h.towers.imp (fun _ h => h.perm hp)
  saf φ ψ := (h.saf φ ψ).trans (hp.map _).sum_eq
  closed := h.closed.imp (fun _ h' p hp' => h' p (hp.mem_iff.mpr hp'))
  ends p hp' := h.ends p (hp.mem_iff.mpr hp')
  starts p hp' := h.starts p (hp.mem_iff.mpr hp')

/-- Only the lengths of the intervals of the pieces matter. -/
theorem Track.congr (h : Track A₀ pieces m R) {len : Label → P} (hl : ∀ p ∈ pieces, ∀ a ∈ p.2.top, p.2.len a = len a) :
    Track A₀ (pieces.map (fun p => (p.1, ⟨p.2.top, p.2.bottom, len⟩))) m R := by
  have hb : ∀ p ∈ pieces, ∀ a ∈ p.2.bottom, p.2.len a = len a := fun p hp a ha => hl p hp a ((h.cover.valid p hp).perm.mem_iff.mp ha)
  have hi : ∀ p ∈ pieces, Interior p = Interior (p.1, ⟨p.2.top, p.2.bottom, len⟩) := by
    intro p hp
    funext x
    simp only [Interior, AIET.Agree.total (E := p.2) (E' := ⟨p.2.top, p.2.bottom, len⟩) ⟨rfl, rfl, hl p hp⟩]
  refine ⟨h.base, h.cover.congr ?_, ?_, h.keys, ?_, h.topRight, h.chain, ?_, h.right, h.left, h.shape, ?_, ?_, ?_, ?_, h.primSaddles,
    h.towers.imp (fun _ h' => h'.congr h.cover.valid hl), ?_, ?_, ?_, ?_⟩
  · rw [List.forall₂_map_right_iff, List.forall₂_same]
    intro p hp
    exact ⟨rfl, rfl, rfl, hl p hp⟩
  · rw [List.pairwise_map]; exact h.disjoint
  · simp only [List.mem_map, forall_exists_index, and_imp, forall_apply_eq_imp_iff₂]; exact h.mem
  · intro l hl
    simp only [List.mem_map, forall_exists_index, and_imp, forall_apply_eq_imp_iff₂] at hl
    exact h.gone l hl
  · rw [List.flatMap_map]; exact h.sources
  · rw [List.flatMap_map]; exact h.targets
  · simp only [List.mem_map, forall_exists_index, and_imp, forall_apply_eq_imp_iff₂]
    intro p hp b hb'
    have := h.primBot p hp b hb'
    rw [← hi p hp]
    simp only [AIET.rightBottom] at this ⊢
    rwa [off_congr (hb p hp), hb p hp b (List.mem_of_mem_dropLast hb')] at this
  · simp only [List.mem_map, forall_exists_index, and_imp, forall_apply_eq_imp_iff₂]
    intro p hp t ht
    have := h.primTop p hp t ht
    rw [← hi p hp]
    simp only [AIET.rightTop] at this ⊢
    rwa [off_congr (hl p hp), hl p hp t (List.mem_of_mem_dropLast ht)] at this
  · intro φ ψ
    rw [h.saf, List.map_map]
    congr 1
    exact List.map_congr_left (fun p hp => AIET.Agree.saf (E := p.2) (E' := ⟨p.2.top, p.2.bottom, len⟩) ⟨rfl, rfl, hl p hp⟩ (h.cover.valid p hp) φ ψ)
  · obtain ⟨lv, h'⟩ := h.closed
    refine ⟨lv, ?_⟩
    simp only [List.mem_map, forall_exists_index, and_imp, forall_apply_eq_imp_iff₂]
    exact h'
  · simp only [List.mem_map, forall_exists_index, and_imp, forall_apply_eq_imp_iff₂]
    intro p hp
    have e := AIET.Agree.total (E := p.2) (E' := ⟨p.2.top, p.2.bottom, len⟩) ⟨rfl, rfl, hl p hp⟩
    rw [← e]
    exact h.ends p hp
  · simp only [List.mem_map, forall_exists_index, and_imp, forall_apply_eq_imp_iff₂]
    exact fun p hp => (h.starts p hp).mono rfl (fun z hz => by rw [hi p hp]; exact hz)

theorem Track.coded (h : Track A₀ pieces m R) : ∀ p ∈ pieces, Coded A₀ p.1 p.2 := by
  obtain ⟨w, hw⟩ := h.towers
  exact fun p hp => hw.coded h.cover.valid hp

variable {rest : List (P × AIET P)} {o : P} {A : AIET P}

/-- Induction on the first piece. -/
theorem Track.steps (h : Track A₀ ((o, A) :: rest) m R) {B : AIET P} (hs : Steps A B) (htop : B.top.Perm A.top) {m' : ConnMap}
    (hm : LeftMoved (fun a => a ∈ A.top) m m')
    (hcl : ∀ lv, ClosedIn A₀.top A₀.bottom m lv A.top A.bottom →
      ∃ lv', (∀ x, x ∉ A.top → lv' x = lv x) ∧ ClosedIn A₀.top A₀.bottom m' lv' B.top B.bottom) : ∃ δ, Track A₀ ((o + δ, B) :: rest) m' R := by
  have hA : A.Valid := h.cover.valid (o, A) (by simp)
  obtain ⟨δ, hg⟩ := hs.geo hA
  have he : m'.endOf = m.endOf := by funext l; simp only [ConnMap.endOf, hm.bottomRight]
  have hpr := hs.prim hA hg.fwd.total_eq
  obtain ⟨w, hw⟩ := h.towers
  have hsub : ∀ z, Interior (o + δ, B) z → Interior (o, A) z := by
    rintro z ⟨k1, k2⟩
    have := hg.fwd.nonneg
    have := hg.fwd.total_eq
    simp only at k1 k2
    constructor <;> simp only <;> linarith
  have hsub' : ∀ z, Interior (o + δ, B) (z + o) → Interior (δ, B) z := by
    rintro z ⟨k1, k2⟩
    simp only at k1 k2
    constructor <;> simp only <;> linarith
  refine ⟨δ, h.base, ?_, ?_, hm.keys.trans h.keys, ?_, fun l => (hm.topRight l).trans (h.topRight l),
    fun l => by rw [hm.bottomRight]; exact h.chain l, ?_, ?_, ?_, h.shape, ?_, ?_, ?_, ?_, h.primSaddles, ?_, ?_, ?_, ?_, ?_⟩
  · exact h.cover.set_fwd h.base (i := 0) rfl hg.fwd
  · have := h.disjoint
    rw [List.pairwise_cons] at this ⊢
    exact ⟨fun q hq a ha => this.1 q hq a (htop.mem_iff.mp ha), this.2⟩
  · simp only [List.forall_mem_cons]
    exact ⟨fun a ha => h.mem (o, A) (by simp) a (htop.mem_iff.mp ha), fun p hp => h.mem p (List.mem_cons_of_mem _ hp)⟩
  · intro l hl
    simp only [List.forall_mem_cons] at hl
    have hlA : l ∉ A.top := fun h' => hl.1 (htop.mem_iff.mpr h')
    rw [hm.out l hlA]
    exact h.gone l (by simp only [List.forall_mem_cons]; exact ⟨hlA, hl.2⟩)
  · simp only [hm.bottomRight]; exact h.right
  · exact (hm.perm _ h.base.nodup (h.mem (o, A) (by simp))).trans h.left
  · rw [he]
    refine List.Perm.trans ?_ h.sources
    simp only [List.flatMap_cons, List.append_assoc]
    exact (hg.botPerm.map _).append_right _
  · refine List.Perm.trans ?_ h.targets
    simp only [List.flatMap_cons, List.append_assoc]
    exact hg.topPerm.append_right _
  · rw [he]
    simp only [List.forall_mem_cons]
    refine ⟨fun b hb => ?_, fun p hp => h.primBot p (List.mem_cons_of_mem _ hp)⟩
    have h1 := preSteps_mono hsub (h.primBot (o, A) (by simp) b (hg.botPerm.mem_iff.mp hb))
    have h2 := hw.lift_pre (p := (o, A)) (by simp) hA (fun z hz => (hsub z hz).inside) hsub' (hpr.bot b hb)
    have e : B.rightBottom b + (o + δ) = B.rightBottom b + δ + o := by ring
    rw [e]
    exact h1.trans h2
  · simp only [List.forall_mem_cons]
    refine ⟨fun t ht => ?_, fun p hp => h.primTop p (List.mem_cons_of_mem _ hp)⟩
    have h1 := postSteps_mono hsub (h.primTop (o, A) (by simp) t (hg.topPerm.mem_iff.mp ht))
    have h2 := hw.lift_post (p := (o, A)) (by simp) hA (fun z hz => (hsub z hz).inside) hsub' (hpr.top t ht)
    have e : B.rightTop t + (o + δ) = B.rightTop t + δ + o := by ring
    rw [e]
    exact h2.trans h1
  · obtain ⟨u, hu⟩ := hs.towers hA hg.fwd.total_eq
    have hdis := h.disjoint
    rw [List.pairwise_cons] at hdis
    have := hw.replace hA hu (by simpa using hg.fwd.valid') (by simpa using ⟨hg.fwd.nonneg, by linarith [hg.fwd.total_eq]⟩)
      (by simpa using fun a ha => htop.mem_iff.mp ha) (fun p hp a ha ha' => hdis.1 p hp a ha' ha)
    exact ⟨_, this⟩
  · intro φ ψ
    rw [h.saf, List.map_cons, List.map_cons, List.sum_cons, List.sum_cons, hs.saf_eq φ ψ hA]
  · obtain ⟨lv, h'⟩ := h.closed
    obtain ⟨lv', h1, h2⟩ := hcl lv (h' (o, A) (by simp))
    have hdis := h.disjoint
    rw [List.pairwise_cons] at hdis
    refine ⟨lv', ?_⟩
    simp only [List.forall_mem_cons]
    refine ⟨h2, fun p hp => ?_⟩
    have hout : ∀ x ∈ p.2.top, x ∉ A.top := fun x hx hx' => hdis.1 p hp x hx' hx
    exact (h' p (List.mem_cons_of_mem _ hp)).congr (h.cover.valid p (List.mem_cons_of_mem _ hp)).perm (fun x hx => hm.out x (hout x hx))
      (fun x hx => h1 x (hout x hx))
  · simp only [List.forall_mem_cons]
    refine ⟨?_, fun p hp => h.ends p (List.mem_cons_of_mem _ hp)⟩
    have e : B.total + (o + δ) = A.total + o := by rw [← hg.fwd.total_eq]; ring
    rw [e]
    exact h.ends (o, A) (by simp)
  · simp only [List.forall_mem_cons]
    refine ⟨?_, fun p hp => h.starts p (List.mem_cons_of_mem _ hp)⟩
    rcases hs.left hA hg.fwd.total_eq with e | ⟨b, hb, hl⟩ | ⟨t, ht, hl⟩
    · simp only at e
      exact (h.starts (o, A) (by simp)).mono (by simp only [e, add_zero]) hsub
    · refine .inr (.inl ⟨m.endOf b, h.sources.mem_iff.mp (List.mem_append_left _ (List.mem_flatMap.mpr ⟨(o, A), by simp, List.mem_map_of_mem hb⟩)), ?_⟩)
      have h1 := preSteps_mono hsub (h.primBot (o, A) (by simp) b hb)
      have h2 := hw.lift_pre (p := (o, A)) (by simp) hA (fun z hz => (hsub z hz).inside) hsub' hl
      simp only [add_comm δ o] at h2
      exact h1.trans h2
    · refine .inr (.inr ⟨t, h.targets.mem_iff.mp (List.mem_append_left _ (List.mem_flatMap.mpr ⟨(o, A), by simp, ht⟩)), ?_⟩)
      have h1 := postSteps_mono hsub (h.primTop (o, A) (by simp) t ht)
      have h2 := hw.lift_post (p := (o, A)) (by simp) hA (fun z hz => (hsub z hz).inside) hsub' hl
      simp only [add_comm δ o] at h2
      exact h2.trans h1

/-- The first piece is split in two. -/
theorem Track.cut (h : Track A₀ ((o, A) :: rest) m R) {l r : AIET P} {k : ℕ} (hc : IsCut A l r k) {b t y : Label}
    (hb : l.bottom.getLast? = some b) (ht : l.top.getLast? = some t) (hy : r.bottom.head? = some y) {m' : ConnMap} {conn : Conn}
    (hconn : conn = ⟨⟨m.endOf b, true⟩, ⟨t, false⟩⟩) (hk : m'.keys = m.keys)
    (hmb : m'.val b = { m.val b with bottomRight := (m.val b).bottomRight ++ [conn] })
    (hmy : m'.val y = { m.val y with bottomLeft := (m.val y).bottomLeft ++ [conn.neg] })
    (hmx : ∀ x, x ≠ b → x ≠ y → m'.val x = m.val x) :
    Track A₀ ((o, l) :: (o + l.total, r) :: rest) m' (R ++ [conn]) := by
  have hA : A.Valid := h.cover.valid (o, A) (by simp)
  have hl := hc.valid_left hA
  have hr := hc.valid_right hA
  have hg := hc.geo hA ht hb
  obtain ⟨f1, f2, f3, f4, f5, f6, f7⟩ := hc.facts hA
  have hbl : b ∈ l.bottom := List.mem_of_getLast? hb
  have hyr : y ∈ r.bottom := List.mem_of_head? hy
  have hblt : b ∈ l.top := f6.mem_iff.mp hbl
  have hyrt : y ∈ r.top := f7.mem_iff.mp hyr
  have hby : b ≠ y := by rintro rfl; exact f5 _ hblt hyrt
  have hbA : b ∈ A.top := by rw [f1]; exact List.mem_append_left _ hblt
  have hyA : y ∈ A.top := by rw [f1]; exact List.mem_append_right _ hyrt
  have hdis := h.disjoint
  rw [List.pairwise_cons] at hdis
  have hb0 : b ∈ A₀.top := h.mem (o, A) (by simp) b hbA
  have hy0 : y ∈ A₀.top := h.mem (o, A) (by simp) y hyA
  have hbr : ∀ x, x ≠ b → (m'.val x).bottomRight = (m.val x).bottomRight := by
    intro x hx
    by_cases h1 : x = y
    · subst h1; rw [hmy]
    · rw [hmx x hx h1]
  have he : ∀ x, x ≠ b → m'.endOf x = m.endOf x := fun x hx => by simp only [ConnMap.endOf, hbr x hx]
  have hb1 : b ∉ l.bottom.dropLast := by
    obtain ⟨l', hl'⟩ := List.getLast?_eq_some_iff.mp hb
    have hn := hl.inv.nodup
    simp only [AIET.inv, hl'] at hn
    rw [hl', List.dropLast_concat]
    rw [List.nodup_append] at hn
    exact fun h => hn.2.2 b h b (by simp) rfl
  have hb2 : b ∉ r.bottom := fun h => f5 b hblt (f7.mem_iff.mp h)
  have e1 : l.bottom.dropLast.map m'.endOf = l.bottom.dropLast.map m.endOf :=
    List.map_congr_left (fun x hx => he x (by rintro rfl; exact hb1 hx))
  have e2 : r.bottom.dropLast.map m'.endOf = r.bottom.dropLast.map m.endOf :=
    List.map_congr_left (fun x hx => he x (by rintro rfl; exact hb2 (List.mem_of_mem_dropLast hx)))
  have hbrest : ∀ p ∈ rest, b ∉ p.2.bottom := fun p hp hbp =>
    hdis.1 p hp b hbA ((h.cover.valid p (List.mem_cons_of_mem _ hp)).perm.mem_iff.mp hbp)
  have e3 : rest.flatMap (fun p => p.2.bottom.dropLast.map m'.endOf) = rest.flatMap (fun p => p.2.bottom.dropLast.map m.endOf) :=
    flatMap_congr' (fun p hp => List.map_congr_left (fun x hx => he x (by
      rintro rfl; exact hbrest p hp (List.mem_of_mem_dropLast hx))))
  have htot : A.total = l.total + r.total := by simp only [AIET.total, f1, sumLen_append, f3, f4]
  have hsubL : ∀ z, Interior (o, l) z → Interior (o, A) z := by
    rintro z ⟨k1, k2⟩
    have : 0 ≤ r.total := sumLen_nonneg hr.pos
    simp only at k1 k2
    constructor <;> simp only <;> linarith
  have hsubR : ∀ z, Interior (o + l.total, r) z → Interior (o, A) z := by
    rintro z ⟨k1, k2⟩
    have : 0 ≤ l.total := sumLen_nonneg hl.pos
    simp only at k1 k2
    constructor <;> simp only <;> linarith
  refine ⟨h.base, ?_, ?_, hk.trans h.keys, ?_, ?_, ?_, ?_, ?_, ?_, ?_, ?_, ?_, ?_, ?_, ?_, ?_, ?_, ?_, ?_, ?_⟩
  · exact (h.cover.cut h.base (i := 0) rfl hc).perm ((List.perm_append_singleton _ _).cons _ |>.trans (.refl _))
  · rw [List.pairwise_cons, List.pairwise_cons]
    refine ⟨?_, ?_, hdis.2⟩
    · simp only [List.forall_mem_cons]
      exact ⟨f5, fun p hp a ha => hdis.1 p hp a (by simp only [f1]; exact List.mem_append_left _ ha)⟩
    · exact fun p hp a ha => hdis.1 p hp a (by simp only [f1]; exact List.mem_append_right _ ha)
  · simp only [List.forall_mem_cons]
    exact ⟨fun a ha => h.mem (o, A) (by simp) a (by simp only [f1]; exact List.mem_append_left _ ha),
      fun a ha => h.mem (o, A) (by simp) a (by simp only [f1]; exact List.mem_append_right _ ha),
      fun p hp => h.mem p (List.mem_cons_of_mem _ hp)⟩
  · intro x
    by_cases h1 : x = b
    · subst h1; rw [hmb]; exact h.topRight _
    · by_cases h2 : x = y
      · subst h2; rw [hmy]; exact h.topRight _
      · rw [hmx x h1 h2]; exact h.topRight _
  · intro x
    by_cases h1 : x = b
    · subst h1; rw [hmb]
      simp only [isChain_append]
      refine ⟨h.chain _, ?_, trivial⟩
      rw [hconn]; rfl
    · rw [hbr x h1]; exact h.chain x
  · intro x hx
    simp only [List.forall_mem_cons] at hx
    have hxA : x ∉ A.top := by rw [f1, List.mem_append]; rintro (h | h); exacts [hx.1 h, hx.2.1 h]
    rw [hmx x (by rintro rfl; exact hxA hbA) (by rintro rfl; exact hxA hyA)]
    exact h.gone x (by simp only [List.forall_mem_cons]; exact ⟨hxA, hx.2.2⟩)
  · rw [List.perm_iff_count]
    intro x
    have h1 := flatMap_update (f := fun l => (m.val l).bottomRight) (g := fun l => (m'.val l).bottomRight) h.base.nodup hb0 hbr x
    have h2 := h.right.count_eq x
    rw [hmb] at h1
    simp only [List.count_append] at h1 h2 ⊢
    omega
  · rw [List.perm_iff_count]
    intro x
    have h1 := flatMap_update (f := fun l => leftOf (m.val l)) (g := fun l => leftOf (m'.val l)) h.base.nodup hy0 (fun z hz => by
      by_cases h1 : z = b
      · subst h1; rw [hmb]; rfl
      · rw [hmx z h1 hz]) x
    have h2 := h.left.count_eq x
    rw [hmy] at h1
    simp only [leftOf, List.map_append, List.map_cons, List.map_nil, List.count_append] at h1 h2 ⊢
    omega
  · simp only [List.forall_mem_append, List.forall_mem_singleton]
    refine ⟨h.shape, ?_⟩
    rw [hconn]; exact ⟨rfl, rfl⟩
  · have h1 := h.sources
    rw [List.perm_iff_count] at h1 ⊢
    intro x
    have h2 := h1 x
    have e4 : A.bottom.dropLast.map m.endOf = l.bottom.dropLast.map m.endOf ++ ([m.endOf b] ++ r.bottom.dropLast.map m.endOf) := by
      rw [hg.botEq]; simp
    have e5 : conn.source.label = m.endOf b := by rw [hconn]
    simp only [List.flatMap_cons, List.map_append, List.map_cons, List.map_nil, e1, e2, e3, e4, e5, List.count_append] at h2 ⊢
    omega
  · have h1 := h.targets
    rw [List.perm_iff_count] at h1 ⊢
    intro x
    have h2 := h1 x
    have e4 : A.top.dropLast = l.top.dropLast ++ ([t] ++ r.top.dropLast) := by rw [hg.topEq]; rfl
    have e5 : conn.target.label = t := by rw [hconn]
    simp only [List.flatMap_cons, List.map_append, List.map_cons, List.map_nil, e4, e5, List.count_append] at h2 ⊢
    omega
  · simp only [List.forall_mem_cons]
    refine ⟨?_, ?_, ?_⟩
    · intro x hx
      have hxA : x ∈ A.bottom.dropLast := by rw [hg.botEq]; exact List.mem_append_left _ hx
      have := preSteps_mono hsubL (h.primBot (o, A) (by simp) x hxA)
      simp only [hg.botL x hx] at this
      rw [he x (by rintro rfl; exact hb1 hx)]
      exact this
    · intro x hx
      have hxA : x ∈ A.bottom.dropLast := by rw [hg.botEq]; exact List.mem_append_right _ (List.mem_cons_of_mem _ hx)
      have := preSteps_mono hsubR (h.primBot (o, A) (by simp) x hxA)
      simp only [hg.botR x hx] at this
      rw [he x (by rintro rfl; exact hb2 (List.mem_of_mem_dropLast hx))]
      have e : r.rightBottom x + (o + l.total) = r.rightBottom x + l.total + o := by ring
      rw [e]
      exact this
    · intro p hp x hx
      rw [he x (by rintro rfl; exact hbrest p hp (List.mem_of_mem_dropLast hx))]
      exact h.primBot p (List.mem_cons_of_mem _ hp) x hx
  · simp only [List.forall_mem_cons]
    refine ⟨?_, ?_, ?_⟩
    · intro x hx
      have hxA : x ∈ A.top.dropLast := by rw [hg.topEq]; exact List.mem_append_left _ hx
      have := postSteps_mono hsubL (h.primTop (o, A) (by simp) x hxA)
      simp only [hg.topL x hx] at this
      exact this
    · intro x hx
      have hxA : x ∈ A.top.dropLast := by rw [hg.topEq]; exact List.mem_append_right _ (List.mem_cons_of_mem _ hx)
      have := postSteps_mono hsubR (h.primTop (o, A) (by simp) x hxA)
      simp only [hg.topR x hx] at this
      have e : r.rightTop x + (o + l.total) = r.rightTop x + l.total + o := by ring
      rw [e]
      exact this
    · exact fun p hp => h.primTop p (List.mem_cons_of_mem _ hp)
  · simp only [List.forall_mem_append, List.forall_mem_singleton]
    refine ⟨h.primSaddles, ?_⟩
    rw [hconn]
    have h1 := h.primBot (o, A) (by simp) b (by simp only; rw [hg.botEq]; simp)
    have h2 := h.primTop (o, A) (by simp) t (by simp only; rw [hg.topEq]; simp)
    simp only [hg.atTop, hg.atBot] at h1 h2
    exact preSteps_inner h1 h2
  · obtain ⟨w, hw⟩ := h.towers
    obtain ⟨u, hu⟩ := hc.towers hA
    have ht : A.total = l.total + r.total := by simp only [AIET.total, f1, sumLen_append, f3, f4]
    have hl0 : 0 ≤ l.total := sumLen_nonneg hl.pos
    have hr0 : 0 ≤ r.total := sumLen_nonneg hr.pos
    have := hw.replace hA hu (by simpa using ⟨hl, hr⟩) (by simpa using ⟨by linarith, hl0, by linarith⟩)
      (by simpa [f1] using ⟨fun a ha => Or.inl ha, fun a ha => Or.inr ha⟩) (fun p hp a ha ha' => hdis.1 p hp a ha' ha)
    simp only [List.map_cons, List.map_nil, add_zero] at this
    exact ⟨_, this⟩
  · intro φ ψ
    simp only [h.saf, List.map_cons, List.sum_cons, hc.saf_eq φ ψ hA]
    ring
  · obtain ⟨lv, h'⟩ := h.closed
    refine ⟨lv, ?_⟩
    simp only [List.forall_mem_cons]
    have h1 := h' (o, A) (by simp)
    simp only [f1, f2] at h1
    obtain ⟨h2, h3⟩ := h1.cut (by rw [← f2]; exact hA.inv.nodup) hb ht hy hconn hmb hmy hmx
    refine ⟨h2, h3, fun p hp => ?_⟩
    refine (h' p (List.mem_cons_of_mem _ hp)).congr (h.cover.valid p (List.mem_cons_of_mem _ hp)).perm (fun x hx => hmx x ?_ ?_) (fun _ _ => rfl)
    · rintro rfl; exact hdis.1 p hp x hbA hx
    · rintro rfl; exact hdis.1 p hp x hyA hx
  · simp only [List.forall_mem_cons]
    have htA : t ∈ A.top.dropLast := by rw [hg.topEq]; simp
    refine ⟨.inr ⟨t, ?_, ?_⟩, ?_, fun p hp => h.ends p (List.mem_cons_of_mem _ hp)⟩
    · exact h.targets.mem_iff.mp (List.mem_append_left _ (List.mem_flatMap.mpr ⟨(o, A), by simp, htA⟩))
    · have := h.geoTop (o, A) (by simp) t htA
      simp only [hg.atTop] at this
      exact this
    · have ht : A.total = l.total + r.total := by simp only [AIET.total, f1, sumLen_append, f3, f4]
      have e : r.total + (o + l.total) = A.total + o := by rw [ht]; ring
      rw [e]
      exact h.ends (o, A) (by simp)
  · simp only [List.forall_mem_cons]
    have htA : t ∈ A.top.dropLast := by rw [hg.topEq]; simp
    refine ⟨(h.starts (o, A) (by simp)).mono rfl hsubL, .inr (.inr ⟨t, ?_, ?_⟩), fun p hp => h.starts p (List.mem_cons_of_mem _ hp)⟩
    · exact h.targets.mem_iff.mp (List.mem_append_left _ (List.mem_flatMap.mpr ⟨(o, A), by simp, htA⟩))
    · have := postSteps_mono hsubR (h.primTop (o, A) (by simp) t htA)
      simp only [hg.atTop, add_comm l.total o] at this
      exact this

/-- The first two intervals of the first piece have the same length. -/
theorem Track.merge (h : Track A₀ ((o, A) :: rest) m R) {C : AIET P} (hmt : MergeTop A C) {b t f : Label}
    (ht : A.top = t :: C.top) (hb : A.bottom.head? = some b) (hf : C.top.head? = some f) {m' : ConnMap} {conn : Conn}
    (hconn : conn = ⟨⟨m.endOf b, true⟩, ⟨t, false⟩⟩) (hk : m'.keys = m.keys)
    (htr : ∀ x, (m'.val x).topRight = [])
    (hmb : (m'.val b).bottomRight = (m.val b).bottomRight ++ ([conn] ++ (m.val t).bottomRight))
    (hmt' : m'.val t = {}) (hmr : ∀ x, x ≠ b → x ≠ t → (m'.val x).bottomRight = (m.val x).bottomRight)
    (hmb' : (m'.val b).bottomLeft = (m.val b).bottomLeft ++ (m.val t).topLeft ++ (m.val t).bottomLeft)
    (hmf : (m'.val f).topLeft = conn.neg :: (m.val f).topLeft)
    (hm2 : ∀ x, x ≠ b → x ≠ t → (m'.val x).bottomLeft = (m.val x).bottomLeft)
    (hm3 : ∀ x, x ≠ f → x ≠ t → (m'.val x).topLeft = (m.val x).topLeft)
    (hmx : ∀ x, x ≠ b → x ≠ t → x ≠ f → m'.val x = m.val x)
    (hleft : ∀ K : List Label, K.Nodup → b ∈ K → t ∈ K → f ∈ K → (K.flatMap (fun l => leftOf (m'.val l))).Perm
      ([conn.neg] ++ K.flatMap (fun l => leftOf (m.val l)))) :
    ∃ δ, Track A₀ ((o + δ, C) :: rest) m' (R ++ [conn]) ∧ ∀ lv, (∀ p ∈ (o, A) :: rest, ClosedIn A₀.top A₀.bottom m lv p.2.top p.2.bottom) →
      ∀ p ∈ (o + δ, C) :: rest, ClosedIn A₀.top A₀.bottom m' lv p.2.top p.2.bottom := by
  have hA : A.Valid := h.cover.valid (o, A) (by simp)
  obtain ⟨δ, hg⟩ := hmt.geo hA (by rw [ht]; rfl) hb
  have hC := hg.fwd.valid'
  have hsub : ∀ z, Interior (o + δ, C) z → Interior (o, A) z := by
    rintro z ⟨k1, k2⟩
    have := hg.fwd.nonneg
    have := hg.fwd.total_eq
    simp only at k1 k2
    constructor <;> simp only <;> linarith
  have hdis := h.disjoint
  rw [List.pairwise_cons] at hdis
  have htA : t ∈ A.top := by rw [ht]; simp
  have hbA : b ∈ A.top := hA.perm.mem_iff.mp (List.mem_of_head? hb)
  have hfC : f ∈ C.top := List.mem_of_head? hf
  have hfA : f ∈ A.top := by rw [ht]; exact List.mem_cons_of_mem _ hfC
  have htC : t ∉ C.top := by have := hA.nodup; rw [ht, List.nodup_cons] at this; exact this.1
  have hbt : b ≠ t := by
    rintro rfl
    obtain ⟨t', b', top, l₁, l₂, len, heq⟩ := hmt
    simp only [List.head?_cons, Option.some.injEq, List.cons.injEq] at hb ht
    have hs := hA.split
    exact hs.b_a (hb.trans ht.1.symm)
  have hbC : b ∈ C.top := by rw [ht] at hbA; simpa [hbt] using hbA
  have h0 : ∀ x ∈ A.top, x ∈ A₀.top := h.mem (o, A) (by simp)
  have htCb : t ∉ C.bottom := fun h => htC (hC.perm.mem_iff.mp h)
  have heb : m'.endOf b = m.endOf t := by
    simp only [ConnMap.endOf, hmb, chainEnd_append]
    simp only [chainEnd, hconn]
  have he : ∀ x, x ≠ b → x ≠ t → m'.endOf x = m.endOf x := fun x hx hx' => by simp only [ConnMap.endOf, hmr x hx hx']
  have e1 : C.bottom.dropLast.map m'.endOf = C.bottom.dropLast.map (fun x => if x = b then m.endOf t else m.endOf x) :=
    List.map_congr_left (fun x hx => by
      split
      · next h => rw [h, heb]
      · next h => exact he x h (by rintro rfl; exact htCb (List.mem_of_mem_dropLast hx)))
  have hrest : ∀ a ∈ A.top, ∀ p ∈ rest, a ∉ p.2.bottom := fun a ha p hp hap =>
    hdis.1 p hp a ha ((h.cover.valid p (List.mem_cons_of_mem _ hp)).perm.mem_iff.mp hap)
  have he3 : ∀ p ∈ rest, ∀ x ∈ p.2.bottom.dropLast, m'.endOf x = m.endOf x := fun p hp x hx => he x
    (by rintro rfl; exact hrest _ hbA p hp (List.mem_of_mem_dropLast hx))
    (by rintro rfl; exact hrest _ htA p hp (List.mem_of_mem_dropLast hx))
  have e3 : rest.flatMap (fun p => p.2.bottom.dropLast.map m'.endOf) = rest.flatMap (fun p => p.2.bottom.dropLast.map m.endOf) :=
    flatMap_congr' (fun p hp => List.map_congr_left (he3 p hp))
  have hcl : ∀ lv, (∀ p ∈ (o, A) :: rest, ClosedIn A₀.top A₀.bottom m lv p.2.top p.2.bottom) →
      ∀ p ∈ (o + δ, C) :: rest, ClosedIn A₀.top A₀.bottom m' lv p.2.top p.2.bottom := by
    intro lv h'
    simp only [List.forall_mem_cons]
    have h1 := h' (o, A) (by simp)
    refine ⟨?_, fun p hp => ?_⟩
    · have hn := hA.nodup
      have hn' := hA.inv.nodup
      clear hg
      obtain ⟨t', b', top, l₁, l₂, len, heq⟩ := hmt
      simp only [List.head?_cons, Option.some.injEq, List.cons.injEq] at hb ht
      obtain ⟨rfl, -⟩ := ht
      subst hb
      exact Closed.merge hn' hn h1 hf hconn hmb hmb' hmf hmr hm2 hm3
    · refine (h' p (List.mem_cons_of_mem _ hp)).congr (h.cover.valid p (List.mem_cons_of_mem _ hp)).perm (fun x hx => hmx x ?_ ?_ ?_) (fun _ _ => rfl)
      · rintro rfl; exact hdis.1 p hp x hbA hx
      · rintro rfl; exact hdis.1 p hp x htA hx
      · rintro rfl; exact hdis.1 p hp x hfA hx
  refine ⟨δ, ⟨h.base, ?_, ?_, hk.trans h.keys, ?_, htr, ?_, ?_, ?_, ?_, ?_, ?_, ?_, ?_, ?_, ?_, ?_, ?_, ?_, ?_, ?_⟩, hcl⟩
  · exact h.cover.set_fwd h.base (i := 0) rfl hg.fwd
  · rw [List.pairwise_cons]
    exact ⟨fun p hp a ha => hdis.1 p hp a (by simp only [ht]; exact List.mem_cons_of_mem _ ha), hdis.2⟩
  · simp only [List.forall_mem_cons]
    exact ⟨fun a ha => h0 a (by rw [ht]; exact List.mem_cons_of_mem _ ha), fun p hp => h.mem p (List.mem_cons_of_mem _ hp)⟩
  · intro x
    by_cases h1 : x = b
    · subst h1; rw [hmb]
      simp only [isChain_append]
      refine ⟨h.chain _, ⟨?_, trivial⟩, ?_⟩
      · rw [hconn]; rfl
      · simp only [chainEnd, hconn]; exact h.chain t
    · by_cases h2 : x = t
      · subst h2; rw [hmt']; trivial
      · rw [hmr x h1 h2]; exact h.chain x
  · intro x hx
    simp only [List.forall_mem_cons] at hx
    by_cases h1 : x = t
    · subst h1; exact hmt'
    · rw [hmx x (by rintro rfl; exact hx.1 hbC) h1 (by rintro rfl; exact hx.1 hfC)]
      refine h.gone x ?_
      simp only [List.forall_mem_cons]
      exact ⟨by rw [ht, List.mem_cons]; rintro (h | h); exacts [h1 h, hx.1 h], hx.2⟩
  · rw [List.perm_iff_count]
    intro x
    have h1 := flatMap_update (f := fun l => (m.val l).bottomRight)
      (g := fun l => if l = b then (m.val b).bottomRight ++ ([conn] ++ (m.val t).bottomRight) else (m.val l).bottomRight)
      h.base.nodup (h0 b hbA) (fun z hz => by rw [if_neg hz]) x
    have h3 := flatMap_update
      (f := fun l => if l = b then (m.val b).bottomRight ++ ([conn] ++ (m.val t).bottomRight) else (m.val l).bottomRight)
      (g := fun l => (m'.val l).bottomRight)
      h.base.nodup (h0 t htA) (fun z hz => by
        by_cases h1 : z = b
        · subst h1; rw [if_pos rfl, hmb]
        · rw [if_neg h1, hmr z h1 hz]) x
    have h2 := h.right.count_eq x
    simp only [hmt', if_neg (Ne.symm hbt), if_true, List.count_append, List.count_nil] at h1 h2 h3 ⊢
    omega
  · have h1 := hleft _ h.base.nodup (h0 b hbA) (h0 t htA) (h0 f hfA)
    refine h1.trans ?_
    rw [List.perm_iff_count]
    intro x
    have h2 := h.left.count_eq x
    simp only [List.map_append, List.map_cons, List.map_nil, List.count_append] at h2 ⊢
    omega
  · simp only [List.forall_mem_append, List.forall_mem_singleton]
    refine ⟨h.shape, ?_⟩
    rw [hconn]; exact ⟨rfl, rfl⟩
  · have h1 := h.sources
    have h4 := hg.perm m.endOf
    rw [List.perm_iff_count] at h1 h4 ⊢
    intro x
    have h2 := h1 x
    have h5 := h4 x
    have e5 : conn.source.label = m.endOf b := by rw [hconn]
    simp only [List.flatMap_cons, List.map_append, List.map_cons, List.map_nil, e1, e3, e5, List.count_append] at h2 h5 ⊢
    omega
  · have h1 := h.targets
    rw [List.perm_iff_count] at h1 ⊢
    intro x
    have h2 := h1 x
    have e4 : A.top.dropLast = [t] ++ C.top.dropLast := hg.top_eq
    have e5 : conn.target.label = t := by rw [hconn]
    simp only [List.flatMap_cons, List.map_append, List.map_cons, List.map_nil, e4, e5, List.count_append] at h2 ⊢
    omega
  · simp only [List.forall_mem_cons]
    refine ⟨?_, ?_⟩
    · intro x hx
      obtain ⟨g1, g2⟩ := hg.bot x hx
      have := preSteps_mono hsub (h.primBot (o, A) (by simp) _ g1)
      simp only [g2] at this
      have e : C.rightBottom x + (o + δ) = C.rightBottom x + δ + o := by ring
      have e' : m'.endOf x = m.endOf (if x = b then t else x) := by
        split
        · next h => rw [h, heb]
        · next h => exact he x h (by rintro rfl; exact htCb (List.mem_of_mem_dropLast hx))
      rw [e, e']
      exact this
    · intro p hp x hx
      rw [he3 p hp x hx]
      exact h.primBot p (List.mem_cons_of_mem _ hp) x hx
  · simp only [List.forall_mem_cons]
    refine ⟨?_, fun p hp => h.primTop p (List.mem_cons_of_mem _ hp)⟩
    intro x hx
    have hxA : x ∈ A.top.dropLast := by rw [hg.top_eq]; exact List.mem_cons_of_mem _ hx
    have := postSteps_mono hsub (h.primTop (o, A) (by simp) x hxA)
    simp only [hg.top x hx] at this
    have e : C.rightTop x + (o + δ) = C.rightTop x + δ + o := by ring
    rw [e]
    exact this
  · simp only [List.forall_mem_append, List.forall_mem_singleton]
    refine ⟨h.primSaddles, ?_⟩
    rw [hconn]
    have h1 := h.primBot (o, A) (by simp) b hg.mem_bot
    have h2 := h.primTop (o, A) (by simp) t (by simp only; rw [hg.top_eq]; simp)
    simp only [hg.atTop, hg.atBot] at h1 h2
    exact preSteps_inner h1 h2
  · obtain ⟨w, hw⟩ := h.towers
    obtain ⟨u, hu⟩ := hmt.towers hA hg.fwd.total_eq
    have := hw.replace hA hu (by simpa using hC) (by simpa using ⟨hg.fwd.nonneg, by linarith [hg.fwd.total_eq]⟩)
      (by rw [ht]; simpa using fun a ha => Or.inr ha) (fun p hp a ha ha' => hdis.1 p hp a ha' ha)
    exact ⟨_, this⟩
  · intro φ ψ
    rw [h.saf, List.map_cons, List.map_cons, List.sum_cons, List.sum_cons, hmt.saf_eq φ ψ hA]
  · exact h.closed.imp hcl
  · simp only [List.forall_mem_cons]
    refine ⟨?_, fun p hp => h.ends p (List.mem_cons_of_mem _ hp)⟩
    have e : C.total + (o + δ) = A.total + o := by rw [← hg.fwd.total_eq]; ring
    rw [e]
    exact h.ends (o, A) (by simp)
  · simp only [List.forall_mem_cons]
    have htA : t ∈ A.top.dropLast := by rw [hg.top_eq]; simp
    refine ⟨.inr (.inr ⟨t, ?_, ?_⟩), fun p hp => h.starts p (List.mem_cons_of_mem _ hp)⟩
    · exact h.targets.mem_iff.mp (List.mem_append_left _ (List.mem_flatMap.mpr ⟨(o, A), by simp, htA⟩))
    · have := postSteps_mono hsub (h.primTop (o, A) (by simp) t htA)
      simp only [hg.atTop, add_comm δ o] at this
      exact this

end track

end Verif
