import Verif.Proofs.World
import Verif.Reach

/-!
# Reachable states are in order
-/

namespace Verif

set_option linter.unusedSectionVars false

theorem flatMap_finRange {α : Type} (d : ℕ) (f : ℕ → List α) : (List.finRange d).flatMap (fun i => f i.val) = (List.range d).flatMap f := by
  rw [← List.map_coe_finRange_eq_range, List.flatMap_map]

theorem filter_finRange (d : ℕ) (i : ℕ) (hi : i < d) {α : Type} (f : ℕ → α) :
   ((List.finRange d).filter (fun j => decide (i < j.val))).map (fun j => f j.val) = (List.range' (i+1) (d - (i+1))).map f := by
  have h : ((List.finRange d).filter (fun j => decide (i < j.val))).map (fun j => j.val) = List.range' (i+1) (d-(i+1)) := by
    have := List.filter_map (f := fun j : Fin d => j.val) (l := List.finRange d) (p := fun j => decide (i < j))
    rw [List.map_coe_finRange_eq_range] at this
    have e : ((fun j => decide (i < j)) ∘ fun j : Fin d => j.val) = fun j : Fin d => decide (i < j.val) := rfl
    rw [e] at this
    rw [← this]
    obtain ⟨k, rfl⟩ : ∃ k, d = (i + 1) + k := ⟨d - (i+1), by omega⟩
    rw [List.range_eq_range', ← List.range'_append_1, List.filter_append]
    rw [List.filter_eq_nil_iff.mpr, List.filter_eq_self.mpr]
    · simp
    · intro a ha; simp at ha ⊢; omega
    · intro a ha; simp at ha ⊢; omega
  rw [← h, List.map_map]; rfl

section model

variable {σ T ε : Type} [CommRing T] [LinearOrder T] [IsStrictOrderedRing T] {O : LengthsOps σ T}
  {d : ℕ} {c : T →+ (Fin d → ℚ)}

theorem coefAt_fin (i : Fin d) (x : T) : coefAt c i.val x = c x i := by simp [coefAt]

/-- The SAF invariant computed by the code is the one of the specification. -/
theorem safList_eq (E : AIET T) : safList c E = E.safVector c := by
  have h1 : E.safVector c = (List.finRange d).flatMap (fun i => ((List.finRange d).filter (fun j => decide (i.val < j.val))).map
      (fun j => E.saf (coefAt c i.val) (coefAt c j.val))) := by
    unfold AIET.safVector
    congr 1
    funext i
    congr 1
    funext j
    congr 1 <;> (funext x; simp [coefAt_fin])
  have h2 : E.safVector c = (List.finRange d).flatMap (fun i => (List.range' (i.val + 1) (d - (i.val + 1))).map
      (fun j => E.saf (coefAt c i.val) (coefAt c j))) := by
    rw [h1]
    congr 1
    funext i
    exact filter_finRange d i.val i.isLt (fun j => E.saf (coefAt c i.val) (coefAt c j))
  rw [h2, flatMap_finRange d (fun i => (List.range' (i + 1) (d - (i + 1))).map (fun j => E.saf (coefAt c i) (coefAt c j)))]
  unfold safList IET.pairs
  rw [List.map_flatMap]
  split
  · rename_i hd
    have : d = 0 ∨ d = 1 := by omega
    rcases this with rfl | rfl <;> simp
  · obtain ⟨k, rfl⟩ : ∃ k, d = k + 1 := ⟨d - 1, by omega⟩
    rw [List.range_succ, List.flatMap_append]
    simp [Function.comp_def]

theorem safVector_inv {E : AIET T} (hE : E.Valid) : E.inv.safVector c = (E.safVector c).map (fun x => -x) := by
  rw [← safList_eq, ← safList_eq, safList_inv hE]

theorem Reachable.ok {H : LawfulLengths O c ε} {L : PPL} (hL : L.Lawful) {w : World σ T} (h : Reachable H L w) : H.WorldOk w := by
  induction h with
  | init h1 h2 =>
    refine ⟨fun E hE => ?_, h2⟩
    obtain ⟨q1, q2⟩ := h1 E hE
    rw [q1]; rw [q1] at q2
    exact .fresh q2
  | step fuel op _ he ih =>
    rcases Op.exec_spec H hL fuel op _ ih with ⟨h1, _⟩ | ⟨w', h1, h2⟩
    · rw [h1] at he; cases he
    · rw [h1] at he; cases he; exact h2.ok

theorem Reachable.good {H : LawfulLengths O c ε} {L : PPL} (hL : L.Lawful) {w : World σ T} (h : Reachable H L w) {E : IET T}
    (hE : E ∈ w.pieces) : H.Good E w.lengths := (h.ok hL).good E hE

theorem Reachable.run {H : LawfulLengths O c ε} {L : PPL} {w w' : World σ T} {ops : List Op} (h : Reachable H L w)
    (hr : Run L O ops w w') : Reachable H L w' := by
  induction hr with
  | nil => exact h
  | cons fuel op he _ ih => exact ih (.step fuel op h he)

theorem Reachable.exec {H : LawfulLengths O c ε} {L : PPL} (hL : L.Lawful) {w w' : World σ T} (h : Reachable H L w)
    {fuel : ℕ} {op : Op} (he : op.exec L O fuel w = .ok w') : ExecSpec H op w w' := by
  rcases Op.exec_spec H hL fuel op w (h.ok hL) with ⟨h1, _⟩ | ⟨w₁, h1, h2⟩
  · rw [h1] at he; cases he
  · rw [h1] at he; cases he; exact h2

theorem Effect.saf {sw : Bool} {A B : AIET T} (hA : A.Valid) (h : Effect sw A [] B) :
    B.safVector c = if sw then (A.safVector c).map (fun x => -x) else A.safVector c := by
  cases h with
  | steps h => rw [← safList_eq, ← safList_eq]; exact safList_congr (fun φ ψ => Steps.saf_eq φ ψ hA h)
  | swap => exact safVector_inv hA
  | merge h hm =>
    rw [← safList_eq, ← safList_eq]
    exact safList_congr (fun φ ψ => by rw [hm.saf_eq φ ψ (Steps.valid hA h), Steps.saf_eq φ ψ hA h])

theorem ExecSpec.length_le {H : LawfulLengths O c ε} {op : Op} {w w' : World σ T} (h : ExecSpec H op w w') :
    w.pieces.length ≤ w'.pieces.length := by
  cases hE : w.pieces[op.index]? with
  | none => rw [h.skip hE]
  | some E =>
    obtain ⟨new, E', h1, _⟩ := h.effect E hE
    rw [h1]; simp

theorem ExecSpec.same_index {H : LawfulLengths O c ε} {op : Op} {w w' : World σ T} (h : ExecSpec H op w w') {E : IET T}
    (hE : w.pieces[op.index]? = some E) : ∃ new E', w'.pieces = w.pieces.set op.index E' ++ new ∧ w'.pieces[op.index]? = some E' ∧
      Effect op.isSwap (H.abs E w.lengths) (new.map (fun R => H.abs R w'.lengths)) (H.abs E' w'.lengths) ∧
      E'.swapped = (op.isSwap ^^ E.swapped) := by
  obtain ⟨new, E', h1, h2, _, h3⟩ := h.effect E hE
  refine ⟨new, E', h1, ?_, h2, h3⟩
  have hlt : op.index < w.pieces.length := by rw [List.getElem?_eq_some_iff] at hE; exact hE.1
  rw [h1, List.getElem?_append_left (by simpa using hlt), List.getElem?_set_self hlt]

end model

end Verif
