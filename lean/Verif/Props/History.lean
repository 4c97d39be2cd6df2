import Verif.Examples

/-!
# C03, C05, C06, C10, C15: arbitrary histories of API calls
-/

namespace Verif

set_option linter.unusedSectionVars false

variable {σ T ε P : Type} [CommRing T] [LinearOrder T] [IsStrictOrderedRing T] [CommRing P] [LinearOrder P]
  [IsStrictOrderedRing P] {O : LengthsOps σ T} {d : ℕ} {c : T →+ (Fin d → ℚ)}

/-! ### C03 -/

/-- **C03** In every reachable state all IETs are valid (same labels on top and bottom, no repetition, positive lengths),
no label belongs to two IETs and the stack of the lengths is empty. -/
theorem C03_valid (H : LawfulLengths O c ε) {L : PPL} (hL : L.Lawful) {w : World σ T} (h : Reachable H L w) :
    (∀ E ∈ w.pieces, (H.abs E w.lengths).Valid ∧ H.stack w.lengths = []) ∧
      w.pieces.Pairwise (fun E F => ∀ a ∈ E.top, a ∉ F.top) :=
  ⟨fun _ hE => ⟨(h.good hL hE).ok.valid, (h.good hL hE).ok.stack⟩, (h.ok hL).disjoint⟩

example : Reachable Examples.hQ2 PPL.ideal ⟨[Examples.redIET], Examples.redState⟩ :=
  Examples.sample_reachable _ _ Examples.red_ok

/-- A history on the reducible example: `reduce`, then a swap of the new IET. -/
example : (do
    let w ← (Op.reduce 0).exec PPL.ideal (SLengths.ops Examples.q2Arith) 0 ⟨[Examples.redIET], Examples.redState⟩
    (Op.swap 1).exec PPL.ideal (SLengths.ops Examples.q2Arith) 0 w : M _).toOption.map
      (fun w => w.pieces.map (fun E => (E.top, E.bottom, E.swapped))) =
    some [([0, 1], [1, 0], false), ([4, 3, 2], [2, 3, 4], true)] := by decide

/-! ### C05 -/

/-- **C05** `swap()` gives the inverse transformation with the same lengths, toggles `swapped()`, and is an involution. -/
theorem C05_swap_inverse (H : LawfulLengths O c ε) {E : IET T} {s : σ} (h : H.Ok E s) {ι : T →+ P} (hι : StrictMono ι) :
    (∀ x y, ((H.abs E.swap s).map ι).Maps x y ↔ ((H.abs E s).map ι).Maps y x) ∧
      E.swap.top = E.bottom ∧ E.swap.bottom = E.top ∧ E.swap.swapped = (!E.swapped) ∧ E.swap.swap = E := by
  refine ⟨fun x y => ?_, rfl, rfl, rfl, by simp⟩
  exact (h.valid.map hι).maps_inv

example : ∀ x y, ((Examples.hInt.abs Examples.intIET.swap Examples.intState).map (Int.castAddHom ℚ)).Maps x y ↔
    ((Examples.hInt.abs Examples.intIET Examples.intState).map (Int.castAddHom ℚ)).Maps y x :=
  (C05_swap_inverse Examples.hInt Examples.int_ok Int.cast_strictMono).1

/-- How often `swap()` is called on the IET `i`, modulo two. -/
def swapParity (i : ℕ) : List Op → Bool
  | [] => false
  | op :: ops => (op.isSwap && op.index == i) ^^ swapParity i ops

/-- **C05** Only explicit calls of `swap()` change `swapped()`, whatever else happens in between. -/
theorem C05_swapped_history (H : LawfulLengths O c ε) {L : PPL} (hL : L.Lawful) {w w' : World σ T} (h : Reachable H L w)
    {ops : List Op} (hr : Run L O ops w w') {i : ℕ} {E : IET T} (hE : w.pieces[i]? = some E) :
    ∃ E', w'.pieces[i]? = some E' ∧ E'.swapped = (swapParity i ops ^^ E.swapped) := by
  induction hr generalizing E with
  | nil => exact ⟨E, hE, by simp [swapParity]⟩
  | @cons w w₁ w₂ ops fuel op he hr ih =>
    have hs := h.exec hL he
    by_cases hi : i = op.index
    · obtain ⟨new, E', _, h2, _, h4⟩ := hs.same_index (hi ▸ hE)
      rw [← hi] at h2
      obtain ⟨E'', q1, q2⟩ := ih (.step fuel op h he) h2
      refine ⟨E'', q1, ?_⟩
      have e : swapParity i (op :: ops) = (op.isSwap ^^ swapParity i ops) := by simp [swapParity, hi]
      rw [q2, h4, e]
      cases op.isSwap <;> simp
    · obtain ⟨h2, _⟩ := hs.others i E hi hE
      obtain ⟨E'', q1, q2⟩ := ih (.step fuel op h he) h2
      refine ⟨E'', q1, ?_⟩
      have e : swapParity i (op :: ops) = swapParity i ops := by
        have : (op.index == i) = false := by simpa using Ne.symm hi
        simp [swapParity, this]
      rw [q2, e]

example : swapParity 0 [.swap 0, .induce 0 5, .swap 1, .swap 0, .swap 0] = true := rfl

/-! ### C06 -/

/-- **C06** In every reachable state, `safInvariant()` returns the SAF invariant of the current IET (computed from scratch),
no matter whether it has been cached before. -/
theorem C06_saf_correct (H : LawfulLengths O c ε) {L : PPL} (hL : L.Lawful) {w : World σ T} (h : Reachable H L w)
    {E : IET T} (hE : E ∈ w.pieces) :
    ∃ E', E.safInvariant O w.lengths = .ok ((H.abs E w.lengths).safVector c, E') ∧ E'.top = E.top ∧ E'.bottom = E.bottom := by
  have hg := h.good hL hE
  refine ⟨{ E with safCache := some (safList c (H.unswapped E w.lengths)) }, ?_, rfl, rfl⟩
  rw [safInvariant_spec H hg.ok hg.cache, safList_eq]

/-- The SAF invariant of the example is not zero. -/
example : (Examples.q2IET.safInvariant (SLengths.ops Examples.q2Arith) Examples.q2State).toOption.map (·.1) = some [-40] := by
  decide +kernel

/-- **C06** The values returned by `safInvariant()` before and after any call on the IET that does not split it are the same,
except for the sign when the call is `swap()`. -/
theorem C06_saf_invariant (H : LawfulLengths O c ε) {L : PPL} (hL : L.Lawful) {w w' : World σ T} (h : Reachable H L w)
    {fuel : ℕ} {op : Op} (he : op.exec L O fuel w = .ok w') (hlen : w'.pieces.length = w.pieces.length)
    {E E' F F' : IET T} {v v' : List ℚ} (hE : w.pieces[op.index]? = some E) (hE' : w'.pieces[op.index]? = some E')
    (hv : E.safInvariant O w.lengths = .ok (v, F)) (hv' : E'.safInvariant O w'.lengths = .ok (v', F')) :
    v' = if op.isSwap then v.map (fun x => -x) else v := by
  have hs := h.exec hL he
  obtain ⟨new, E₁, h1, h2, h3, h4⟩ := hs.same_index hE
  have hnew : new = [] := by
    rw [h1] at hlen
    simpa using hlen
  rw [hE'] at h2
  cases h2
  subst hnew
  obtain ⟨_, q1, _⟩ := C06_saf_correct H hL h (List.mem_of_getElem? hE)
  obtain ⟨_, q2, _⟩ := C06_saf_correct H hL (.step fuel op h he) (List.mem_of_getElem? hE')
  rw [hv] at q1
  rw [hv'] at q2
  cases q1
  cases q2
  exact Effect.saf (h.good hL (List.mem_of_getElem? hE)).ok.valid h3

/-- **C06** The same for arbitrary histories that split nothing. -/
theorem C06_saf_history (H : LawfulLengths O c ε) {L : PPL} (hL : L.Lawful) {w w' : World σ T} (h : Reachable H L w)
    {ops : List Op} (hr : Run L O ops w w') (hlen : w'.pieces.length = w.pieces.length) {i : ℕ}
    {E E' F F' : IET T} {v v' : List ℚ} (hE : w.pieces[i]? = some E) (hE' : w'.pieces[i]? = some E')
    (hv : E.safInvariant O w.lengths = .ok (v, F)) (hv' : E'.safInvariant O w'.lengths = .ok (v', F')) :
    v' = if swapParity i ops then v.map (fun x => -x) else v := by
  have mono : ∀ {ops : List Op} {w w' : World σ T}, Reachable H L w → Run L O ops w w' → w.pieces.length ≤ w'.pieces.length := by
    intro ops w w' h hr
    induction hr with
    | nil => exact le_refl _
    | cons fuel op he _ ih => exact le_trans (h.exec hL he).length_le (ih (.step fuel op h he))
  induction hr generalizing E F v with
  | nil =>
    rw [hE] at hE'; cases hE'
    rw [hv] at hv'; cases hv'
    rfl
  | @cons w w₁ w₂ ops fuel op he hr ih =>
    have hs := h.exec hL he
    have hR1 : Reachable H L w₁ := .step fuel op h he
    have hl1 : w₁.pieces.length = w.pieces.length := le_antisymm (by rw [← hlen]; exact mono hR1 hr) hs.length_le
    by_cases hi : i = op.index
    · subst hi
      obtain ⟨new, E₁, _, h2, _, _⟩ := hs.same_index hE
      obtain ⟨F₁, q1, _⟩ := C06_saf_correct H hL hR1 (List.mem_of_getElem? h2)
      have e1 := C06_saf_invariant H hL h he hl1 hE h2 hv q1
      have e2 := ih hR1 (hlen.trans hl1.symm) h2 hE' q1 hv'
      have e : swapParity op.index (op :: ops) = (op.isSwap ^^ swapParity op.index ops) := by simp [swapParity]
      rw [e2, e1, e]
      cases op.isSwap <;> cases swapParity op.index ops <;> simp
    · obtain ⟨h2, hl⟩ := hs.others i E hi hE
      obtain ⟨F₁, q1, _⟩ := C06_saf_correct H hL hR1 (List.mem_of_getElem? h2)
      obtain ⟨F₀, q0, _⟩ := C06_saf_correct H hL h (List.mem_of_getElem? hE)
      rw [hv] at q0
      cases q0
      have hv0 := (h.good hL (List.mem_of_getElem? hE)).ok.valid
      have hag : (H.abs E w.lengths).Agree (H.abs E w₁.lengths) := ⟨rfl, rfl, fun a ha => (hl a ha).symm⟩
      have e1 : (H.abs E w₁.lengths).safVector c = (H.abs E w.lengths).safVector c := by
        rw [← safList_eq, ← safList_eq]
        exact safList_congr (fun φ ψ => (hag.saf hv0 φ ψ).symm)
      have e2 := ih hR1 (hlen.trans hl1.symm) h2 hE' q1 hv'
      have e : swapParity i (op :: ops) = swapParity i ops := by
        have : (op.index == i) = false := by simpa using Ne.symm hi
        simp [swapParity, this]
      rw [e2, e1, e]

/-! ### C10 -/

/-- **C10** Calls on other IETs that share the lengths leave an IET alone: it is literally unchanged, all its lengths are
unchanged, the SAF invariant that it reports is unchanged and it describes the same map. -/
theorem C10_frame (H : LawfulLengths O c ε) {L : PPL} (hL : L.Lawful) {w w' : World σ T} (h : Reachable H L w)
    {ops : List Op} (hr : Run L O ops w w') {j : ℕ} (hj : ∀ op ∈ ops, op.index ≠ j) {F : IET T} (hF : w.pieces[j]? = some F)
    {ι : T →+ P} :
    w'.pieces[j]? = some F ∧ (∀ a ∈ F.top, O.get a w'.lengths = O.get a w.lengths) ∧
      (F.safInvariant O w'.lengths).map Prod.fst = (F.safInvariant O w.lengths).map Prod.fst ∧
      ((H.abs F w'.lengths).map ι).Maps = ((H.abs F w.lengths).map ι).Maps := by
  have key : w'.pieces[j]? = some F ∧ (∀ a ∈ F.top, H.len w'.lengths a = H.len w.lengths a) := by
    induction hr with
    | nil => exact ⟨hF, fun _ _ => rfl⟩
    | @cons w w₁ w₂ ops fuel op he hr ih =>
      have hs := h.exec hL he
      obtain ⟨h2, h3⟩ := hs.others j F (Ne.symm (hj op (by simp))) hF
      obtain ⟨q1, q2⟩ := ih (.step fuel op h he) (fun o ho => hj o (by simp [ho])) h2
      exact ⟨q1, fun a ha => (q2 a ha).trans (h3 a ha)⟩
  obtain ⟨k1, k2⟩ := key
  have hm := List.mem_of_getElem? hF
  have hm' := List.mem_of_getElem? k1
  have hg := h.good hL hm
  have hg' := (h.run hr).good hL hm'
  have hag : (H.abs F w'.lengths).Agree (H.abs F w.lengths) := ⟨rfl, rfl, k2⟩
  refine ⟨k1, ?_, ?_, ?_⟩
  · intro a ha
    rw [H.get_spec _ _ hg'.ok.inv (hg'.ok.dom a ha), H.get_spec _ _ hg.ok.inv (hg.ok.dom a ha), k2 a ha]
  · obtain ⟨_, e1, _⟩ := C06_saf_correct H hL h hm
    obtain ⟨_, e2, _⟩ := C06_saf_correct H hL (h.run hr) hm'
    rw [e1, e2]
    have : (H.abs F w'.lengths).safVector c = (H.abs F w.lengths).safVector c := by
      rw [← safList_eq, ← safList_eq]
      exact safList_congr (fun φ ψ => hag.saf hg'.ok.valid φ ψ)
    simp [Except.map, this]
  · have h1 : ((H.abs F w'.lengths).map ι).Agree ((H.abs F w.lengths).map ι) := hag.map
    funext x y
    unfold AIET.Maps
    simp only [h1.off_top]
    have hb : ∀ a, off ((H.abs F w'.lengths).map ι).len ((H.abs F w'.lengths).map ι).bottom a =
        off ((H.abs F w.lengths).map ι).len ((H.abs F w.lengths).map ι).bottom a := by
      intro a
      apply off_congr
      intro b hb
      exact h1.2.2 b (hg'.ok.valid.perm.mem_iff.mp hb)
    simp only [hb]
    apply propext
    apply exists_congr
    intro a
    constructor
    · rintro ⟨ha, h2, h3, h4⟩
      exact ⟨ha, h2, by rw [← h1.2.2 a ha]; exact h3, h4⟩
    · rintro ⟨ha, h2, h3, h4⟩
      exact ⟨ha, h2, by rw [h1.2.2 a ha]; exact h3, h4⟩

/-! ### C15 -/

/-- **C15** In a reachable state no call fails: no assertion is violated, nothing is thrown, there is no undefined behaviour.
The only way not to return is an unlimited `induce(-1)` whose loop does not stop. -/
theorem C15_no_error (H : LawfulLengths O c ε) {L : PPL} (hL : L.Lawful) {w : World σ T} (h : Reachable H L w)
    (fuel : ℕ) (op : Op) :
    (∃ w', op.exec L O fuel w = .ok w') ∨ (op.exec L O fuel w = .error .fuel ∧ ∃ i, op = .induce i (-1)) := by
  rcases Op.exec_spec H hL fuel op w (h.ok hL) with h1 | ⟨w', h1, _⟩
  · exact .inr h1
  · exact .inl ⟨w', h1⟩

example (fuel : ℕ) (op : Op) :
    (∃ w', op.exec PPL.ideal (SLengths.ops Examples.q2Arith) fuel ⟨[Examples.q2IET], Examples.q2State⟩ = .ok w') ∨
      (op.exec PPL.ideal (SLengths.ops Examples.q2Arith) fuel ⟨[Examples.q2IET], Examples.q2State⟩ = .error .fuel ∧
        ∃ i, op = .induce i (-1)) :=
  C15_no_error Examples.hQ2 PPL.ideal_lawful (Examples.sample_reachable _ _ Examples.q2_ok) fuel op

end Verif
