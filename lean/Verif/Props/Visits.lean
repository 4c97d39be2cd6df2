import Verif.Proofs.Visits
import Verif.Props.Genus
import Mathlib.LinearAlgebra.Matrix.NonsingularInverse

/-!
# C95: unimodular matrices of visits

As long as no intervals get removed, the lengths before some calls are non-negative integer combinations of the lengths after these calls.  The coefficients say how
often the points of an interval visit the original intervals until they return; they form a matrix of determinant one that preserves the intersection form.
-/

namespace Verif

set_option linter.unusedSectionVars false

variable {σ T P ε : Type} [CommRing T] [LinearOrder T] [IsStrictOrderedRing T] [CommRing P] [LinearOrder P] [IsStrictOrderedRing P]
  {O : LengthsOps σ T} {d : ℕ} {c : T →+ (Fin d → ℚ)}

/-- **C95** A single call of `zorichInduction()`. -/
theorem C95_zorich (H : LawfulLengths O c ε) {E : IET T} {s : σ} (h : H.Ok E s) {ι : T →+ P} (hι : StrictMono ι) :
    ∃ r E' s' δ w, E.zorichInduction O s = .ok (r, E', s') ∧ Unwinds ((H.abs E s).map ι) δ ((H.abs E' s').map ι) w := by
  obtain ⟨r, E', s', h1, h2⟩ := zorichInduction_spec H E s h
  obtain ⟨δ, w, h3⟩ := (h2.run.steps.map hι).unwinds (h.valid.map hι)
  exact ⟨r, E', s', δ, w, h1, h3⟩

theorem Effect.unwinds {sw : Bool} {A B : AIET T} {new : List (AIET T)} (hA : A.Valid) (h : Effect sw A new B) {ι : T →+ P} (hι : StrictMono ι) :
    B.top.length ≤ A.top.length ∧
      (B.top.length = A.top.length → ∃ δ w, Unwinds (if sw then (A.map ι).inv else A.map ι) δ (B.map ι) w) := by
  cases h with
  | steps h =>
    refine ⟨(h.length hA).le, fun _ => ?_⟩
    exact (h.map hι).unwinds (hA.map hι)
  | swap =>
    refine ⟨hA.perm.length_eq.le, fun _ => ⟨0, _, .refl ?_⟩⟩
    exact (hA.map hι).inv
  | @cut A B l r k h h' =>
    have hB := Steps.valid hA h
    have h1 := (h'.disjoint hB).1.length_eq
    have h2 : r.top ≠ [] := (h'.valid_right hB).ne_nil
    have h3 := h.length hA
    have h4 := List.length_pos_iff.mpr h2
    rw [List.length_append] at h1
    exact ⟨by omega, fun _ => by omega⟩
  | @merge A B C h h' =>
    have h3 := h.length hA
    cases h' with
    | mk t b top l₁ l₂ len e =>
      simp only [List.length_cons] at h3 ⊢
      exact ⟨by omega, fun _ => by omega⟩

/-- **C95** Any sequence of calls on any IETs: when no interval of the i-th IET has been removed then it unwinds its original state, or the inverse of it when the rows
have been exchanged. -/
theorem C95_calls (H : LawfulLengths O c ε) {L : PPL} (hL : L.Lawful) {w w' : World σ T} (h : Reachable H L w) {ops : List Op} (hr : Run L O ops w w')
    {i : ℕ} {E : IET T} (hE : w.pieces[i]? = some E) {ι : T →+ P} (hι : StrictMono ι) :
    ∃ E', w'.pieces[i]? = some E' ∧ E'.top.length ≤ E.top.length ∧ (E'.top.length = E.top.length →
      ∃ δ v, Unwinds (if E'.swapped = E.swapped then (H.abs E w.lengths).map ι else ((H.abs E w.lengths).map ι).inv) δ ((H.abs E' w'.lengths).map ι) v) := by
  induction hr generalizing E with
  | nil => exact ⟨E, hE, le_refl _, fun _ => ⟨0, _, by rw [if_pos rfl]; exact .refl ((h.good hL (List.mem_of_getElem? hE)).ok.valid.map hι)⟩⟩
  | @cons w w₁ w₂ ops fuel op he hr ih =>
    have hs := h.exec hL he
    have hw₁ : Reachable H L w₁ := .step fuel op h he
    have hA : ((H.abs E w.lengths).map ι).Valid := (h.good hL (List.mem_of_getElem? hE)).ok.valid.map hι
    have key : ∃ E₁, w₁.pieces[i]? = some E₁ ∧ E₁.top.length ≤ E.top.length ∧ (E₁.top.length = E.top.length →
        ∃ δ v, Unwinds (if E₁.swapped = E.swapped then (H.abs E w.lengths).map ι else ((H.abs E w.lengths).map ι).inv) δ ((H.abs E₁ w₁.lengths).map ι) v) := by
      by_cases hi : i = op.index
      · subst hi
        obtain ⟨new, E₁, h1, h2, -, h3⟩ := hs.effect E hE
        have hlt : op.index < w.pieces.length := (List.getElem?_eq_some_iff.1 hE).1
        obtain ⟨h4, h5⟩ := h2.unwinds (h.good hL (List.mem_of_getElem? hE)).ok.valid hι
        refine ⟨E₁, by rw [h1, List.getElem?_append_left (by simpa using hlt), List.getElem?_set_self hlt], h4, fun e => ?_⟩
        obtain ⟨δ, v, h6⟩ := h5 e
        refine ⟨δ, v, ?_⟩
        rw [h3]
        cases hsw : op.isSwap <;> cases hsE : E.swapped <;> simpa [hsw] using h6
      · obtain ⟨h1, h2⟩ := hs.others i E hi hE
        refine ⟨E, h1, le_refl _, fun _ => ⟨0, fun a => [a], ?_⟩⟩
        rw [if_pos rfl]
        exact (Unwinds.refl hA).congr hA (fun a ha => congrArg ι (h2 a ha).symm)
    obtain ⟨E₁, h1, h2, h3⟩ := key
    obtain ⟨E₂, g1, g2, g3⟩ := ih hw₁ h1
    refine ⟨E₂, g1, g2.trans h2, fun e => ?_⟩
    obtain ⟨δ, v, k⟩ := h3 (by omega)
    obtain ⟨δ', v', k'⟩ := g3 (by omega)
    have hB : ((H.abs E₁ w₁.lengths).map ι).Valid := (hw₁.good hL (List.mem_of_getElem? h1)).ok.valid.map hι
    have hC : ((H.abs E₂ w₂.lengths).map ι).Valid := ((hw₁.run hr).good hL (List.mem_of_getElem? g1)).ok.valid.map hι
    by_cases e1 : E₂.swapped = E₁.swapped
    · rw [if_pos e1] at k'
      rw [e1]
      exact ⟨_, _, k.trans hB hC k'⟩
    · rw [if_neg e1] at k'
      by_cases e2 : E₁.swapped = E.swapped
      · rw [if_pos e2] at k
        rw [if_neg (by rw [← e2]; exact e1)]
        exact ⟨_, _, (k.inv hA hB).trans hB.inv hC k'⟩
      · rw [if_neg e2] at k
        rw [if_pos (by cases h1 : E₂.swapped <;> cases h2 : E₁.swapped <;> cases h3 : E.swapped <;> simp_all)]
        exact ⟨_, _, (k.inv hA.inv hB).trans hB.inv hC k'⟩

theorem sumLen_finset (f : Label → P) {l : List Label} (hl : l.Nodup) : sumLen f l = ∑ x : l.toFinset, f x := by
  rw [Finset.sum_coe_sort l.toFinset f, List.sum_toFinset f hl]
  clear hl
  induction l with
  | nil => rfl
  | cons a l ih => rw [sumLen_cons, ih, List.map_cons, List.sum_cons]

theorem Unwinds.lengths {A B : AIET P} {δ : P} {w : Label → List Label} (hB : B.Valid) (h : Unwinds A δ B w) (x : A.top.toFinset) :
    A.len x = ∑ y, ((visits A.top.toFinset w x y : ℤ) : P) * B.len y := by
  have h1 := h.towers.heights x (List.mem_toFinset.mp x.2)
  simp only [List.map_cons, List.map_nil, List.sum_cons, List.sum_nil, add_zero] at h1
  rw [h1, sumLen_perm _ h.labels, sumLen_finset _ (h.labels.nodup_iff.mp hB.nodup)]
  refine Finset.sum_congr rfl (fun y _ => ?_)
  simp [visits]

theorem combine_inverse {S : Finset Label} {N M : Matrix S S ℤ} (h : M * N = 1) {f g : Label → P} (hf : ∀ x : S, f x = ∑ y, ((N x y : ℤ) : P) * g y) (x : S) :
    g x = ∑ y, ((M x y : ℤ) : P) * f y := by
  simp only [hf, Finset.mul_sum]
  rw [Finset.sum_comm]
  have e : ∀ z : S, ∑ y, ((M x y : ℤ) : P) * (((N y z : ℤ) : P) * g z) = (if x = z then g z else 0) := by
    intro z
    have h1 : (M * N) x z = (1 : Matrix S S ℤ) x z := by rw [h]
    rw [Matrix.mul_apply, Matrix.one_apply] at h1
    have h2 := congrArg (fun k : ℤ => (k : P)) h1
    simp only [Int.cast_sum, Int.cast_mul] at h2
    simp only [← mul_assoc]
    rw [← Finset.sum_mul, h2]
    by_cases hx : x = z <;> simp [hx]
  rw [Finset.sum_congr rfl (fun z _ => e z), Finset.sum_ite_eq, if_pos (Finset.mem_univ x)]

/-- **C95** In terms of lengths only: the lengths before some calls are combinations of the lengths after the calls with coefficients `N` that are non-negative integers
and the lengths after the calls are combinations of the lengths before with integers `N⁻¹`. -/
theorem C95_lengths (H : LawfulLengths O c ε) {L : PPL} (hL : L.Lawful) {w w' : World σ T} (h : Reachable H L w) {ops : List Op} (hr : Run L O ops w w')
    {i : ℕ} {E E' : IET T} (hE : w.pieces[i]? = some E) (hE' : w'.pieces[i]? = some E') (he : E'.top.length = E.top.length) :
    ∃ N M : Matrix E.top.toFinset E.top.toFinset ℤ, N * M = 1 ∧ N.det = 1 ∧ (∀ x y, 0 ≤ N x y) ∧
      (∀ x : E.top.toFinset, H.len w.lengths x = ∑ y, ((N x y : ℤ) : T) * H.len w'.lengths y) ∧
      (∀ x : E.top.toFinset, H.len w'.lengths x = ∑ y, ((M x y : ℤ) : T) * H.len w.lengths y) := by
  obtain ⟨E₁, h1, -, h2⟩ := C95_calls H hL h hr hE (ι := AddMonoidHom.id T) (fun _ _ h => h)
  rw [hE'] at h1
  cases h1
  obtain ⟨δ, v, h3⟩ := h2 he
  have hA := (h.good hL (List.mem_of_getElem? hE)).ok.valid
  have hB := ((h.run hr).good hL (List.mem_of_getElem? hE')).ok.valid
  rw [AIET.map_id, AIET.map_id] at h3
  have e : (if E'.swapped = E.swapped then H.abs E w.lengths else (H.abs E w.lengths).inv).top.toFinset = E.top.toFinset := by
    split
    · rfl
    · exact List.toFinset_eq_of_perm _ _ hA.perm
  have e2 : (if E'.swapped = E.swapped then H.abs E w.lengths else (H.abs E w.lengths).inv).len = H.len w.lengths := by
    split <;> rfl
  have h4 := h3.lengths hB
  have h5 := h3.det
  rw [e2] at h4
  generalize (if E'.swapped = E.swapped then H.abs E w.lengths else (H.abs E w.lengths).inv).top.toFinset = S at e h4 h5
  subst e
  have h6 : IsUnit (visits E.top.toFinset v).det := by rw [h5]; exact isUnit_one
  have h7 := Matrix.mul_nonsing_inv _ h6
  have h8 := Matrix.nonsing_inv_mul _ h6
  refine ⟨visits E.top.toFinset v, (visits E.top.toFinset v)⁻¹, h7, h5, fun x y => ?_, h4, combine_inverse h8 h4⟩
  simp [visits]

/-! ### Examples -/

namespace Examples

/-- The rotation with lengths 7 and 4 after two calls of `zorichInduction()` with a `swap()` in between has the lengths 3 and 1. -/
example : ∃ w' E', Run PPL.ideal (SLengths.ops intArith) [.zorichInduction 1, .swap 1, .zorichInduction 1] pairWorld w' ∧ w'.pieces[1]? = some E' ∧
    w'.lengths.lengths = [5, 3, 3, 1] ∧ E'.swapped = true ∧
    ∃ δ v, Unwinds (((hInt).abs (IET.fresh [2, 3] [3, 2]) pairWorld.lengths).map (AddMonoidHom.id ℤ)).inv δ ((hInt.abs E' w'.lengths).map (AddMonoidHom.id ℤ)) v := by
  obtain ⟨w', hr, h1, h2⟩ := pairWorld_run
  obtain ⟨E', h3, -, h4⟩ := C95_calls hInt PPL.ideal_lawful pairWorld_reachable hr (i := 1) (E := IET.fresh [2, 3] [3, 2]) rfl (ι := AddMonoidHom.id ℤ) (fun _ _ h => h)
  have h5 : (w'.pieces.map (fun E => (E.top, E.bottom, E.swapped)))[1]? = some (E'.top, E'.bottom, E'.swapped) := by
    rw [List.getElem?_map, h3]; rfl
  rw [h1] at h5
  obtain ⟨e1, -, e2⟩ : [3, 2] = E'.top ∧ [2, 3] = E'.bottom ∧ true = E'.swapped := by simpa using h5
  obtain ⟨δ, v, h6⟩ := h4 (by rw [← e1]; rfl)
  rw [← e2, if_neg (by decide)] at h6
  exact ⟨w', E', hr, h3, h2, e2.symm, δ, v, h6⟩

/-- `7 = 2 * 3 + 1` and `4 = 3 + 1`: the matrix of visits of the rotation. -/
example : !![(2 : ℤ), 1; 1, 1].det = 1 ∧ (7 : ℤ) = 2 * 3 + 1 * 1 ∧ (4 : ℤ) = 1 * 3 + 1 * 1 := by
  refine ⟨?_, rfl, rfl⟩
  rw [Matrix.det_fin_two]
  rfl

end Examples

end Verif
