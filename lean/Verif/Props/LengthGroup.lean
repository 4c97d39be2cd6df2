import Mathlib.RingTheory.Ideal.Span
import Mathlib.LinearAlgebra.Dimension.Constructions
import Verif.Proofs.LengthGroup
import Verif.Props.Confluence
import Verif.Props.Instances

/-!
# C88: the group generated by the lengths never changes

The lengths change all the time but the additive group that they generate does not: neither when calls are made on IETs nor when they are decomposed.
-/

namespace Verif

set_option linter.unusedSectionVars false

variable {σ T ε : Type} [CommRing T] [LinearOrder T] [IsStrictOrderedRing T] {O : LengthsOps σ T} {d : ℕ} {c : T →+ (Fin d → ℚ)}

/-- The sums and differences of the lengths of the intervals of all the IETs. -/
def World.lengthGroup (H : LawfulLengths O c ε) (w : World σ T) : AddSubgroup T :=
  AddSubgroup.closure {v | ∃ E ∈ w.pieces, ∃ a ∈ E.top, v = H.len w.lengths a}

/-- The sums and differences of the lengths of the intervals of all the components. -/
def Decomp.lengthGroup (H : LawfulLengths O c ε) (D : Decomp σ T) : AddSubgroup T :=
  AddSubgroup.closure {v | ∃ x ∈ D.comps, ∃ a ∈ x.iet.top, v = H.len D.lengths.inner a}

theorem World.lengthGroup_eq (H : LawfulLengths O c ε) (w : World σ T) :
    w.lengthGroup H = groups ((w.pieces.map (fun E => H.abs E w.lengths) : List (AIET T)) : Multiset (AIET T)) := by
  unfold World.lengthGroup groups
  congr 1
  ext v
  simp only [Multiset.mem_coe, List.mem_map, Set.mem_ofPred_eq]
  constructor
  · rintro ⟨E, hE, a, ha, rfl⟩; exact ⟨_, ⟨E, hE, rfl⟩, a, ha, rfl⟩
  · rintro ⟨_, ⟨E, hE, rfl⟩, a, ha, rfl⟩; exact ⟨E, hE, a, ha, rfl⟩

theorem Decomp.lengthGroup_eq (H : LawfulLengths O c ε) (D : Decomp σ T) : D.lengthGroup H = groups (D.parts H) := by
  unfold Decomp.lengthGroup groups Decomp.parts
  congr 1
  ext v
  simp only [Multiset.mem_coe, List.mem_map, Set.mem_ofPred_eq]
  constructor
  · rintro ⟨x, hx, a, ha, rfl⟩
    exact ⟨_, ⟨x, hx, rfl⟩, a, ha, by simp [AIET.norm, LawfulLengths.abs, ha]⟩
  · rintro ⟨_, ⟨x, hx, rfl⟩, a, ha, rfl⟩
    have ha' : a ∈ x.iet.top := ha
    exact ⟨x, hx, a, ha, by simp [AIET.norm, LawfulLengths.abs, ha']⟩

/-- **C88** No calls on any IETs change the group generated by the lengths of all the IETs. -/
theorem C88_calls (H : LawfulLengths O c ε) {L : PPL} (hL : L.Lawful) {w w' : World σ T} (h : Reachable H L w) {ops : List Op}
    (hr : Run L O ops w w') : w'.lengthGroup H = w.lengthGroup H := by
  induction hr with
  | nil => rfl
  | @cons w w₁ w₂ ops fuel op he hr ih =>
    rw [ih (.step fuel op h he)]
    have hs := h.exec hL he
    cases hE : w.pieces[op.index]? with
    | none => rw [hs.skip hE]
    | some E =>
      obtain ⟨new, E', h1, h2, -, -⟩ := hs.effect E hE
      have hlt : op.index < w.pieces.length := (List.getElem?_eq_some_iff.1 hE).1
      have hEq : w.pieces[op.index] = E := (List.getElem?_eq_some_iff.1 hE).2
      rw [World.lengthGroup_eq, World.lengthGroup_eq]
      have e1 : w.pieces = w.pieces.take op.index ++ E :: w.pieces.drop (op.index + 1) := by
        conv_lhs => rw [← List.take_append_drop op.index w.pieces, List.drop_eq_getElem_cons hlt, hEq]
      have hlen : ∀ F ∈ w.pieces.take op.index ++ w.pieces.drop (op.index + 1), ∀ a ∈ F.top, H.len w₁.lengths a = H.len w.lengths a := by
        intro F hF
        obtain ⟨j, hj, hF'⟩ : ∃ j, j ≠ op.index ∧ w.pieces[j]? = some F := by
          rcases List.mem_append.mp hF with hF | hF
          · obtain ⟨j, hj⟩ := List.mem_iff_getElem?.mp hF
            have hj' : j < op.index := by
              by_contra hc
              rw [List.getElem?_eq_none (by simp; omega)] at hj
              cases hj
            exact ⟨j, by omega, by rwa [List.getElem?_take_of_lt hj'] at hj⟩
          · obtain ⟨j, hj⟩ := List.mem_iff_getElem?.mp hF
            rw [List.getElem?_drop] at hj
            exact ⟨_, by omega, hj⟩
        exact (hs.others j F hj hF').2
      have e2 : w₁.pieces = (w.pieces.take op.index ++ E' :: w.pieces.drop (op.index + 1)) ++ new := by
        rw [h1, List.set_eq_take_append_cons_drop, if_pos hlt]
      have hv := (h.good hL (List.mem_of_getElem? hE)).ok.valid
      have q1 : (((w.pieces.map (fun E => H.abs E w.lengths)) : List (AIET T)) : Multiset (AIET T)) = H.abs E w.lengths ::ₘ
          (((w.pieces.take op.index ++ w.pieces.drop (op.index + 1)).map (fun F => H.abs F w.lengths) : List (AIET T)) : Multiset (AIET T)) := by
        conv_lhs => rw [e1]
        rw [Multiset.cons_coe, Multiset.coe_eq_coe, List.map_append, List.map_cons, List.map_append]
        exact List.perm_middle
      have q2 : (((w₁.pieces.map (fun E => H.abs E w₁.lengths)) : List (AIET T)) : Multiset (AIET T)) = H.abs E' w₁.lengths ::ₘ
          (((new.map (fun R => H.abs R w₁.lengths) : List (AIET T)) : Multiset (AIET T)) +
          (((w.pieces.take op.index ++ w.pieces.drop (op.index + 1)).map (fun F => H.abs F w₁.lengths) : List (AIET T)) : Multiset (AIET T))) := by
        rw [e2, Multiset.coe_add, Multiset.cons_coe, Multiset.coe_eq_coe, List.map_append, List.map_append, List.map_cons, List.map_append,
          List.append_assoc, List.cons_append]
        refine List.perm_middle.trans (List.Perm.cons _ ?_)
        rw [← List.append_assoc]
        exact List.perm_append_comm
      rw [q1, q2, h2.groups hv, groups_cons, groups_cons]
      congr 1
      unfold groups
      congr 1
      ext v
      simp only [Multiset.mem_coe, List.mem_map, Set.mem_ofPred_eq]
      constructor
      · rintro ⟨_, ⟨F, hF, rfl⟩, a, ha, rfl⟩; exact ⟨_, ⟨F, hF, rfl⟩, a, ha, hlen F hF a ha⟩
      · rintro ⟨_, ⟨F, hF, rfl⟩, a, ha, rfl⟩; exact ⟨_, ⟨F, hF, rfl⟩, a, ha, (hlen F hF a ha).symm⟩

/-- **C88** In all states of a decomposition, the lengths of the components generate the same group as the lengths of the IET that is decomposed. -/
theorem C88_decomposition (H : LawfulLengths O c ε) {L : PPL} (hL : L.Lawful) {E : IET T} {s : σ} (hE : H.Ok E s) {D : Decomp σ T}
    {steps : List DStep} (h : DReach L O E s D steps) :
    D.lengthGroup H = AddSubgroup.closure {v | ∃ a ∈ E.top, v = H.len s a} := by
  rw [Decomp.lengthGroup_eq, (h.rws hL H hE).groups]
  have := groups_cons (H.abs E s).norm (0 : Multiset (AIET T))
  rw [groups_zero, sup_bot_eq, AIET.group_norm] at this
  exact this

/-- **C88** When all components are cylinders, each of the lengths is a sum of multiples of the lengths of the cylinders and conversely. -/
theorem C88_cylinders (H : LawfulLengths O c ε) {L : PPL} (hL : L.Lawful) {E : IET T} {s : σ} (hE : H.Ok E s) {D : Decomp σ T}
    {steps : List DStep} (h : DReach L O E s D steps) (hD : ∀ x ∈ D.comps, x.iet.top.length = 1) :
    AddSubgroup.closure {v | ∃ p ∈ D.cylinders H, v = p.2} = AddSubgroup.closure {v | ∃ a ∈ E.top, v = H.len s a} := by
  rw [← C88_decomposition H hL hE h]
  unfold Decomp.lengthGroup Decomp.cylinders
  congr 1
  ext v
  simp only [List.mem_filterMap, Set.mem_ofPred_eq]
  constructor
  · rintro ⟨p, ⟨x, hx, hp⟩, rfl⟩
    split at hp
    · rename_i a ha
      cases hp
      exact ⟨x, hx, a, by simp [ha], rfl⟩
    · cases hp
  · rintro ⟨x, hx, a, ha, rfl⟩
    obtain ⟨b, hb⟩ := List.length_eq_one_iff.mp (hD x hx)
    have : a = b := by simpa [hb] using ha
    subst this
    exact ⟨(a, _), ⟨x, hx, by simp only [hb]⟩, rfl⟩

/-- **C88** A number divides all lengths if and only if it divides the lengths of all cylinders, when all components are cylinders. -/
theorem C88_divides (H : LawfulLengths O c ε) {L : PPL} (hL : L.Lawful) {E : IET T} {s : σ} (hE : H.Ok E s) {D : Decomp σ T}
    {steps : List DStep} (h : DReach L O E s D steps) (hD : ∀ x ∈ D.comps, x.iet.top.length = 1) (m : T) :
    (∀ p ∈ D.cylinders H, m ∣ p.2) ↔ ∀ a ∈ E.top, m ∣ H.len s a := by
  have key : ∀ S : Set T, (∀ v ∈ S, m ∣ v) ↔ AddSubgroup.closure S ≤ (Ideal.span {m}).toAddSubgroup := by
    intro S
    rw [AddSubgroup.closure_le]
    constructor
    · intro h v hv; exact Ideal.mem_span_singleton.mpr (h v hv)
    · intro h v hv; exact Ideal.mem_span_singleton.mp (h hv)
  have h1 := key {v | ∃ p ∈ D.cylinders H, v = p.2}
  have h2 := key {v | ∃ a ∈ E.top, v = H.len s a}
  rw [C88_cylinders H hL hE h hD, ← h2] at h1
  constructor
  · intro q a ha
    exact h1.mp (by rintro _ ⟨p, hp, rfl⟩; exact q p hp) _ ⟨a, ha, rfl⟩
  · intro q p hp
    exact h1.mpr (by rintro _ ⟨a, ha, rfl⟩; exact q a ha) _ ⟨p, hp, rfl⟩

/-- **C88** When there are `n` lengths without a linear relation with integer coefficients, then there are at least `n` intervals in all the
components; in particular, there are at least `n` cylinders when all components are cylinders. -/
theorem C88_rank (H : LawfulLengths O c ε) {L : PPL} (hL : L.Lawful) {E : IET T} {s : σ} (hE : H.Ok E s) {D : Decomp σ T}
    {steps : List DStep} (h : DReach L O E s D steps) {n : ℕ} {a : Fin n → Label} (ha : ∀ i, a i ∈ E.top)
    (hind : LinearIndependent ℤ (fun i => H.len s (a i))) : n ≤ (D.comps.map (fun x => x.iet.top.length)).sum := by
  classical
  let W : Finset T := (D.comps.flatMap (fun x => x.iet.top.map (H.len D.lengths.inner))).toFinset
  have hW : W.card ≤ (D.comps.map (fun x => x.iet.top.length)).sum := by
    refine (List.toFinset_card_le _).trans (le_of_eq ?_)
    rw [List.length_flatMap]
    simp
  refine le_trans ?_ hW
  have hspan : Set.range (fun i => H.len s (a i)) ≤ Submodule.span ℤ (W : Set T) := by
    rintro _ ⟨i, rfl⟩
    have h1 : H.len s (a i) ∈ D.lengthGroup H := by
      rw [C88_decomposition H hL hE h]
      exact AddSubgroup.subset_closure ⟨a i, ha i, rfl⟩
    have h2 : D.lengthGroup H ≤ (Submodule.span ℤ (W : Set T)).toAddSubgroup := by
      unfold Decomp.lengthGroup
      rw [AddSubgroup.closure_le]
      rintro _ ⟨x, hx, b, hb, rfl⟩
      refine Submodule.subset_span ?_
      simp only [W, List.coe_toFinset, List.mem_flatMap, List.mem_map, Set.mem_ofPred_eq]
      exact ⟨x, hx, b, hb, rfl⟩
    exact h2 h1
  have := linearIndependent_le_span_aux' (fun i => H.len s (a i)) hind (W : Set T) hspan
  simpa using this

namespace Examples

/-- For the five intervals of length 10, 6, 6, 3, 9, all components are cylinders in the end, of length 2, 3 and 3. -/
example : ∃ D steps, DReach PPL.ideal (SLengths.ops intArith) twoIET twoState D steps ∧ D.cylinders hInt = [(1, 2), (3, 3), (4, 3)] ∧
    ((∀ p ∈ D.cylinders hInt, (3 : ℤ) ∣ p.2) ↔ ∀ a ∈ twoIET.top, (3 : ℤ) ∣ hInt.len twoState a) := by
  obtain ⟨st, D, h1, h2, h3, h4⟩ := of_cylindersAfter two_run
  refine ⟨D, st, h1, h4, C88_divides hInt PPL.ideal_lawful two_ok h1 (fun x hx => ?_) 3⟩
  have : x.iet.top ∈ D.comps.map (fun x : Comp ℤ => x.iet.top) := List.mem_map_of_mem hx
  rw [h3] at this
  simp only [List.mem_cons, List.not_mem_nil, or_false] at this
  rcases this with e | e | e <;> simp [e]

/-- The numbers `1` and `√2` are independent, so there are always two intervals. -/
example : ∃ D steps, DReach PPL.ideal (SLengths.ops q2Arith) q2RotIET q2RotState D steps ∧ 2 ≤ (D.comps.map (fun x => x.iet.top.length)).sum := by
  obtain ⟨D, h1, -⟩ := Decomp.make_spec hQ2 (ι := AddMonoidHom.id Q2) (fun _ _ h => h) q2Rot_ok
  refine ⟨D, [], .init h1, C88_rank hQ2 PPL.ideal_lawful q2Rot_ok (.init (L := PPL.ideal) h1) (n := 2) (a := fun i => i.val) ?_ ?_⟩
  · intro i; fin_cases i <;> decide
  · rw [Fintype.linearIndependent_iff]
    intro g hg
    have h0 := q2Rot_independent (fun a => if h : a < 2 then g ⟨a, h⟩ else 0) (by
      rw [Fin.sum_univ_two, zsmul_eq_mul, zsmul_eq_mul] at hg
      show (((if h : 0 < 2 then g ⟨0, h⟩ else 0 : ℤ)) : Q2) * _ + ((((if h : 1 < 2 then g ⟨1, h⟩ else 0 : ℤ)) : Q2) * _ + 0) = 0
      rw [add_zero]
      exact hg)
    intro i
    have := h0 i.val (by fin_cases i <;> decide)
    simpa only [i.isLt, dite_true] using this

example : ∃ w', Run PPL.ideal (SLengths.ops intArith) [.zorichInduction 1, .swap 1, .zorichInduction 1] pairWorld w' ∧
    w'.lengthGroup hInt = pairWorld.lengthGroup hInt := by
  obtain ⟨w', h, -⟩ := pairWorld_run
  exact ⟨w', h, C88_calls hInt PPL.ideal_lawful pairWorld_reachable h⟩

end Examples

end Verif
