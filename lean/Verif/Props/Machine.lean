import Verif.Proofs.Machine
import Verif.Props.History
import Verif.Props.Independence
import Verif.Props.Logarithmic
import Verif.Props.Cylinders
import Verif.Props.Failures

/-!
# C28: no overflow with machine integers
-/

namespace Verif

set_option linter.unusedSectionVars false

/-- A user creates an IET with the given lengths in a signed integral type: the lengths are not negative, their total is at most `max`,
the IET is valid, i.e., its labels are positions in the list of lengths, all of them have positive length, top and bottom have the
same labels. -/
structure FitsInput (max : ℤ) (lengths : List ℤ) (top bottom : List Label) : Prop where
  nonneg : ∀ x ∈ lengths, 0 ≤ x
  total : lengths.sum ≤ max
  known : ∀ a ∈ top, a < lengths.length
  valid : (⟨top, bottom, fun a => lengths.getD a 0⟩ : AIET ℤ).Valid

theorem FitsInput.ok {max : ℤ} {lengths : List ℤ} {top bottom : List Label} (h : FitsInput max lengths top bottom) :
    (MLengths.lawful max).Ok (IET.fresh top bottom) ⟨[], lengths⟩ where
  inv := ⟨h.nonneg, h.total, List.nodup_nil⟩
  stack := rfl
  dom := h.known
  valid := h.valid
  nonneg a _ := MLengths.Fits.len_nonneg ⟨h.nonneg, h.total, List.nodup_nil⟩ a

theorem FitsInput.ok' {max : ℤ} {lengths : List ℤ} {top bottom : List Label} (h : FitsInput max lengths top bottom) :
    (SLengths.lawful intArith_lawful).Ok (IET.fresh top bottom) ⟨[], lengths⟩ where
  inv := trivial
  stack := rfl
  dom := h.known
  valid := h.valid
  nonneg a _ := MLengths.Fits.len_nonneg ⟨h.nonneg, h.total, List.nodup_nil⟩ a

theorem FitsInput.reachable {max : ℤ} {lengths : List ℤ} {top bottom : List Label} (h : FitsInput max lengths top bottom) {L : PPL}
    {ops : List Op} {w : World (SLengths ℤ) ℤ} (hr : Run L (MLengths.ops max) ops ⟨[IET.fresh top bottom], ⟨[], lengths⟩⟩ w) :
    Reachable (MLengths.lawful max) L w := by
  refine Reachable.run (.init ?_ (List.pairwise_singleton _ _)) hr
  intro E hE
  rw [List.mem_singleton] at hE
  subst hE
  exact ⟨rfl, h.ok⟩

/-- **C28.** If the total of the lengths fits into the type then no call after any calls overflows (an overflow is `Err.ub`) or fails in
any other way, except that `induce(-1)` may not be done after `fuel` iterations.  With `max` the total, every intermediate value of the
calculation is bounded by the total. -/
theorem C28_no_overflow {max : ℤ} {lengths : List ℤ} {top bottom : List Label} (h : FitsInput max lengths top bottom) {L : PPL} (hL : L.Lawful)
    {ops : List Op} {w : World (SLengths ℤ) ℤ} (hr : Run L (MLengths.ops max) ops ⟨[IET.fresh top bottom], ⟨[], lengths⟩⟩ w)
    (fuel : ℕ) (op : Op) :
    (∃ w', op.exec L (MLengths.ops max) fuel w = .ok w') ∨
      (op.exec L (MLengths.ops max) fuel w = .error .fuel ∧ ∃ i, op = .induce i (-1)) :=
  C15_no_error (MLengths.lawful max) hL (h.reachable hr) fuel op

/-- **C28.** At any time the lengths are between zero and `max` and so is their total. -/
theorem C28_bounded {max : ℤ} {lengths : List ℤ} {top bottom : List Label} (h : FitsInput max lengths top bottom) {L : PPL} (hL : L.Lawful)
    {ops : List Op} {w : World (SLengths ℤ) ℤ} (hr : Run L (MLengths.ops max) ops ⟨[IET.fresh top bottom], ⟨[], lengths⟩⟩ w)
    {E : IET ℤ} (hE : E ∈ w.pieces) :
    (∀ x ∈ w.lengths.lengths, 0 ≤ x ∧ x ≤ max) ∧ w.lengths.lengths.sum ≤ max := by
  have hg := ((h.reachable hr).good hL hE).ok.inv
  refine ⟨fun x hx => ⟨hg.nonneg x hx, ?_⟩, hg.total⟩
  obtain ⟨i, hi, rfl⟩ := List.getElem_of_mem hx
  have := MLengths.Fits.len_le hg hi
  simpa [SLengths.len, hi] using this

theorem both_run {max : ℤ} {L : PPL} (hL : L.Lawful) {ops : List Op} {w w₁ : World (SLengths ℤ) ℤ} (hr : Run L (SLengths.ops intArith) ops w w₁) :
    ∀ {w' : World (SLengths ℤ) ℤ}, Both (SLengths.lawful intArith_lawful) (MLengths.lawful max) L w w' →
    ∃ w₁', Run L (MLengths.ops max) ops w' w₁' ∧ Both (SLengths.lawful intArith_lawful) (MLengths.lawful max) L w₁ w₁' := by
  induction hr with
  | nil => intro w' h; exact ⟨w', .nil, h⟩
  | cons fuel op he _ ih =>
    intro w' h
    rcases C42_progress _ _ hL h fuel op with ⟨e, h1, -⟩ | ⟨v, v', h1, h2, h3⟩
    · rw [h1] at he; cases he
    · rw [h1] at he
      cases he
      obtain ⟨w₁', h4, h5⟩ := ih h3
      exact ⟨w₁', .cons fuel op h2 h4, h5⟩

/-- **C28.** Calls with machine integers have the same effect as with integers of unlimited size: the same calls can be made, then
the IETs are the same and the calls return the same results. -/
theorem C28_same {max : ℤ} {lengths : List ℤ} {top bottom : List Label} (h : FitsInput max lengths top bottom) {L : PPL} (hL : L.Lawful)
    {ops : List Op} {w : World (SLengths ℤ) ℤ} (hr : Run L (SLengths.ops intArith) ops ⟨[IET.fresh top bottom], ⟨[], lengths⟩⟩ w) :
    ∃ w', Run L (MLengths.ops max) ops ⟨[IET.fresh top bottom], ⟨[], lengths⟩⟩ w' ∧
      List.Forall₂ (fun E F => E.top = F.top ∧ E.bottom = F.bottom ∧ E.swapped = F.swapped ∧
        (∀ a ∈ E.top, ∃ x, w.lengths.lengths[a]? = some x ∧ w'.lengths.lengths[a]? = some x) ∧
        (∀ fuel limit, (E.induce L (SLengths.ops intArith) fuel limit w.lengths).map Prod.fst = (F.induce L (MLengths.ops max) fuel limit w'.lengths).map Prod.fst) ∧
        (E.zorichInduction (SLengths.ops intArith) w.lengths).map Prod.fst = (F.zorichInduction (MLengths.ops max) w'.lengths).map Prod.fst)
        w.pieces w'.pieces := by
  have h0 : Both (SLengths.lawful intArith_lawful) (MLengths.lawful max) L ⟨[IET.fresh top bottom], ⟨[], lengths⟩⟩ ⟨[IET.fresh top bottom], ⟨[], lengths⟩⟩ := by
    refine .init ?_ ?_ ?_ (List.pairwise_singleton _ _)
    · intro E hE
      rw [List.mem_singleton] at hE
      subst hE
      exact ⟨rfl, h.ok'⟩
    · intro E hE
      rw [List.mem_singleton] at hE
      subst hE
      exact h.ok
    · intro E hE a ha
      rfl
  obtain ⟨w', h1, h2⟩ := both_run hL hr h0
  refine ⟨w', h1, ?_⟩
  have h3 := C42_state _ _ hL h2
  rw [List.forall₂_iff_get] at h3 ⊢
  refine ⟨h3.1, fun i hi hi' => ?_⟩
  obtain ⟨g1, g2, g3, g4⟩ := h3.2 i hi hi'
  obtain ⟨r1, r2, -⟩ := C42_results _ _ hL h2 (i := i) (List.getElem?_eq_getElem hi) (List.getElem?_eq_getElem hi')
  refine ⟨g1, g2, g3, ?_, r1, r2⟩
  intro a ha
  obtain ⟨x, hx, hx'⟩ := g4 a ha
  have aux : ∀ s : SLengths ℤ, s.at' a = .ok x → s.lengths[a]? = some x := by
    intro s hs
    unfold SLengths.at' at hs
    cases e : s.lengths[a]? with
    | none => rw [e] at hs; cases hs
    | some y => rw [e] at hs; cases hs; rfl
  exact ⟨x, aux _ hx, aux _ hx'⟩

/-- **C28.** The products in `similar()` could overflow, but with integers the tracker is never asked (the SAF invariant has no
entries): this step of `induce()` changes nothing but the cached invariant. -/
theorem C28_no_similarity {max : ℤ} {lengths : List ℤ} {top bottom : List Label} (h : FitsInput max lengths top bottom) {L : PPL} (hL : L.Lawful)
    {ops : List Op} {w : World (SLengths ℤ) ℤ} (hr : Run L (MLengths.ops max) ops ⟨[IET.fresh top bottom], ⟨[], lengths⟩⟩ w)
    {E : IET ℤ} (hE : E ∈ w.pieces) (z : Bool) :
    ∃ v, E.trackStep (MLengths.ops max) z w.lengths = .ok (false, { E with safCache := v }) := by
  have hg := (h.reachable hr).good hL hE
  unfold IET.trackStep
  cases z with
  | false => exact ⟨E.safCache, rfl⟩
  | true =>
    refine ⟨some [], ?_⟩
    rw [if_pos rfl, saf_spec (MLengths.lawful max) hg.ok hg.cache, ok_bind]
    simp [safList, pure, Except.pure]

/-- **C28.** The counter of iterations in `induce(-1)` is an `int`.  With integers of 64 bits and up to 8000 intervals it does not
overflow: `induce(-1)` returns after less than 2³¹ iterations. -/
theorem C28_counter {max : ℤ} (hmax : max < 2 ^ 63) {lengths : List ℤ} {top bottom : List Label} (h : FitsInput max lengths top bottom) {L : PPL} (hL : L.Lawful)
    {ops : List Op} {w : World (SLengths ℤ) ℤ} (hr : Run L (MLengths.ops max) ops ⟨[IET.fresh top bottom], ⟨[], lengths⟩⟩ w)
    {E : IET ℤ} (hE : E ∈ w.pieces) (hn : E.top.length ≤ 8000) :
    ∃ step E' s', E.induce L (MLengths.ops max) (2 ^ 31 - 1) (-1) w.lengths = .ok (step, E', s') := by
  have hg := (h.reachable hr).good hL hE
  refine C54_unlimited (MLengths.lawful max) hL (h.reachable hr) hE (u := 1) (by norm_num) (k := fun a => (w.lengths.len a).toNat) ?_ ?_
  · intro a ha
    rw [(MLengths.lawful max).get_spec _ _ hg.ok.inv (hg.ok.dom a ha)]
    have := MLengths.Fits.len_nonneg hg.ok.inv a
    simp only [mul_one, Int.toNat_of_nonneg this]
    rfl
  · have h1 : ∀ a ∈ E.top, Nat.log 2 (w.lengths.len a).toNat ≤ 62 := by
      intro a ha
      have h2 : w.lengths.len a ≤ max := MLengths.Fits.len_le hg.ok.inv (hg.ok.dom a ha)
      have h3 : (w.lengths.len a).toNat < 2 ^ 63 := by omega
      have h4 := Nat.log_lt_of_lt_pow' (b := 2) (x := 63) (by norm_num) h3
      omega
    have h5 : (E.top.map (fun a => Nat.log 2 (w.lengths.len a).toNat)).sum ≤ E.top.length * 62 := by
      have : ∀ l : List Label, (∀ a ∈ l, Nat.log 2 (w.lengths.len a).toNat ≤ 62) →
          (l.map (fun a => Nat.log 2 (w.lengths.len a).toNat)).sum ≤ l.length * 62 := by
        intro l
        induction l with
        | nil => simp
        | cons b l ih =>
          intro hl
          have g1 := hl b (by simp)
          have g2 := ih (fun a ha => hl a (by simp [ha]))
          simp only [List.map_cons, List.sum_cons, List.length_cons]
          omega
      exact this _ h1
    have h6 : E.top.length * (1 + (E.top.map (fun a => Nat.log 2 (w.lengths.len a).toNat)).sum) ≤ 8000 * (1 + 8000 * 62) :=
      Nat.mul_le_mul hn (by omega)
    omega

/-- **C28.** The same for decompositions: if the total fits, no call of `decompositionStep` with a limit on a component overflows, and the
lengths remain between zero and `max`. -/
theorem C28_decomposition {max : ℤ} {lengths : List ℤ} {top bottom : List Label} (h : FitsInput max lengths top bottom) {L : PPL} (hL : L.Lawful)
    {D : Decomp (SLengths ℤ) ℤ} {steps : List DStep} (hr : DReach L (MLengths.ops max) (IET.fresh top bottom) ⟨[], lengths⟩ D steps)
    {i : ℕ} (hi : i < D.comps.length) {limit : ℤ} (hlimit : limit ≠ -1) (fuel : ℕ) :
    (∃ step D', D.decompositionStep L (MLengths.ops max) fuel limit i = .ok (step, D')) ∧
      (∀ x ∈ D.lengths.inner.lengths, 0 ≤ x ∧ x ≤ max) ∧ D.lengths.inner.lengths.sum ≤ max := by
  constructor
  · rcases C57_step (MLengths.lawful max) hL h.ok hr hi fuel limit with h1 | ⟨h1, -⟩
    · exact h1
    · exact absurd h1 hlimit
  · have hinv := hr.inv hL (MLengths.lawful max) (ι := AddMonoidHom.id ℤ) (fun _ _ h => h) h.ok
    have hg : MLengths.Fits max D.lengths.inner := (hinv.good _ (List.getElem_mem hi)).ok.inv.1
    refine ⟨fun x hx => ⟨hg.nonneg x hx, ?_⟩, hg.total⟩
    obtain ⟨i, hi, rfl⟩ := List.getElem_of_mem hx
    have := MLengths.Fits.len_le hg hi
    simpa [SLengths.len, hi] using this

/-- **C28.** For integers of 64 bits and up to 5000 intervals, `decompose()` without a limit decomposes into cylinders without any
overflow, neither in the lengths nor in the internal limit. -/
theorem C28_decompose {max : ℤ} (hmax : max < 2 ^ 63) {lengths : List ℤ} {top bottom : List Label} (h : FitsInput max lengths top bottom) {L : PPL} (hL : L.Lawful)
    (hn : top.length ≤ 5000) {D : Decomp (SLengths ℤ) ℤ} {steps : List DStep} (hr : DReach L (MLengths.ops max) (IET.fresh top bottom) ⟨[], lengths⟩ D steps) :
    ∃ D', D.decompose L (MLengths.ops max) Decomp.defaultTarget (-1) 5031 = .ok (true, D') ∧
      ∀ x ∈ D'.comps, x.cylinder = some true ∧ x.withoutPeriodicTrajectory = some false ∧ x.iet.top.length = 1 := by
  have hok := h.ok
  have hfits : MLengths.Fits max ⟨[], lengths⟩ := hok.inv
  refine C39_decompose (MLengths.lawful max) hL hok (u := 1) (by norm_num) (k := fun a => (lengths.getD a 0).toNat) ?_ ?_ hr
    (Nat.add_le_add_right hn 31)
  · intro a ha
    rw [(MLengths.lawful max).get_spec _ _ hok.inv (hok.dom a ha)]
    have : 0 ≤ lengths.getD a 0 := MLengths.Fits.len_nonneg hfits a
    simp only [mul_one, Int.toNat_of_nonneg this]
    rfl
  · have h1 : ∀ a ∈ top, Nat.log 2 (lengths.getD a 0).toNat ≤ 62 := by
      intro a ha
      have h2 : lengths.getD a 0 ≤ max := MLengths.Fits.len_le hfits (h.known a ha)
      have h3 : (lengths.getD a 0).toNat < 2 ^ 63 := by omega
      have h4 := Nat.log_lt_of_lt_pow' (b := 2) (x := 63) (by norm_num) h3
      omega
    have h5 : (top.map (fun a => Nat.log 2 (lengths.getD a 0).toNat)).sum ≤ top.length * 62 := by
      have : ∀ l : List Label, (∀ a ∈ l, Nat.log 2 (lengths.getD a 0).toNat ≤ 62) →
          (l.map (fun a => Nat.log 2 (lengths.getD a 0).toNat)).sum ≤ l.length * 62 := by
        intro l
        induction l with
        | nil => simp
        | cons b l ih =>
          intro hl
          have g1 := hl b (by simp)
          have g2 := ih (fun a ha => hl a (by simp [ha]))
          simp only [List.map_cons, List.sum_cons, List.length_cons]
          omega
      exact this _ h1
    have h6 : top.length * (1 + (top.map (fun a => Nat.log 2 (lengths.getD a 0).toNat)).sum) ≤ 5000 * (1 + 5000 * 62) :=
      Nat.mul_le_mul hn (by omega)
    exact le_trans h6 (by norm_num)

/-- Lengths of 8 bits with the maximal total, 127. -/
example : FitsInput 127 [100, 10, 3, 14] [0, 1, 2, 3] [3, 2, 1, 0] where
  nonneg := by decide
  total := by decide
  known := by decide
  valid := ⟨by decide, by decide, by decide, by decide⟩

/-- That the total fits is needed, it is not enough that each length fits: the type has 8 bits, the lengths are 125, 64 and 64. -/
theorem C28_total_needed (L : PPL) : (Op.zorichInduction 0).exec L (MLengths.ops 127) 0 ⟨[IET.fresh [0, 1, 2] [2, 1, 0]], ⟨[], [125, 64, 64]⟩⟩ = .error .ub :=
  rfl

/-- **C28.** What `similar()` returns for lengths `x`, `y` and `ox`, `oy` that are not negative: the exact answer if both products `x * oy`, `y * ox` are in
range, undefined behaviour as soon as one of them is not (unless both lengths of one of the labels are zero, then no product is computed). -/
theorem C28_similar {max x y ox oy : ℤ} (hx : 0 ≤ x) (hy : 0 ≤ y) (hox : 0 ≤ ox) (hoy : 0 ≤ oy) {s o : SLengths ℤ} {a b aa bb : Label}
    (ha : s.at' a = .ok x) (hb : s.at' b = .ok y) (haa : o.at' aa = .ok ox) (hbb : o.at' bb = .ok oy) :
    (x = 0 ∧ ox = 0 ∨ y = 0 ∧ oy = 0 → MLengths.similar max a b s o.at' aa bb = .ok true) ∧
    (¬ (x = 0 ∧ ox = 0 ∨ y = 0 ∧ oy = 0) → x * oy ≤ max → y * ox ≤ max →
      MLengths.similar max a b s o.at' aa bb = .ok (decide (x * oy = y * ox))) ∧
    (¬ (x = 0 ∧ ox = 0 ∨ y = 0 ∧ oy = 0) → (max < x * oy ∨ max < y * ox) →
      MLengths.similar max a b s o.at' aa bb = .error .ub) := by
  have p1 : 0 ≤ x * oy := mul_nonneg hx hoy
  have p2 : 0 ≤ y * ox := mul_nonneg hy hox
  have e : MLengths.similar max a b s o.at' aa bb =
      if x = 0 ∧ ox = 0 then .ok true else if y = 0 ∧ oy = 0 then .ok true else
        (checked max (x * oy)).bind fun u => (checked max (y * ox)).bind fun v => .ok (decide (u = v)) := by
    simp only [MLengths.similar, ha, hb, haa, hbb, bind, Except.bind, pure, Except.pure]
  refine ⟨fun h => ?_, fun h h1 h2 => ?_, fun h h1 => ?_⟩
  · rw [e]
    rcases h with h | h
    · rw [if_pos h]
    · rw [if_pos h, ite_self]
  · rw [not_or] at h
    rw [e, if_neg h.1, if_neg h.2, checked_ok p1 h1, checked_ok p2 h2]
    rfl
  · rw [not_or] at h
    rw [e, if_neg h.1, if_neg h.2]
    rcases h1 with h1 | h1
    · have : checked max (x * oy) = .error .ub := if_neg (fun h => absurd h.2 (not_le.mpr h1))
      rw [this]; rfl
    · have : checked max (y * ox) = .error .ub := if_neg (fun h => absurd h.2 (not_le.mpr h1))
      rw [this]
      unfold checked
      split <;> rfl

/-- The products in `similar()` do overflow for lengths whose total fits, here 100 * 100 in a type of 8 bits. -/
example : MLengths.similar 127 0 1 ⟨[], [100, 3]⟩ (fun l => SLengths.at' ⟨[], [3, 100]⟩ l) 0 1 = .error .ub :=
  (C28_similar (x := 100) (y := 3) (ox := 3) (oy := 100) (o := ⟨[], [3, 100]⟩) (by norm_num) (by norm_num) (by norm_num) (by norm_num) rfl rfl rfl rfl).2.2
    (by norm_num) (.inl (by norm_num))

/-- The other product overflows. -/
example : MLengths.similar 127 0 1 ⟨[], [3, 100]⟩ (fun l => SLengths.at' ⟨[], [100, 3]⟩ l) 0 1 = .error .ub := by decide

end Verif
