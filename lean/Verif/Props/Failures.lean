import Verif.Props.Target
import Verif.Proofs.Pointer

/-!
# C57: decomposing never fails
-/

namespace Verif

set_option linter.unusedSectionVars false

variable {σ T ε : Type} [CommRing T] [LinearOrder T] [IsStrictOrderedRing T] {O : LengthsOps σ T} {d : ℕ} {c : T →+ (Fin d → ℚ)}

/-- **C57.** A `DynamicalDecomposition` can be created from any valid IET. -/
theorem C57_make (H : LawfulLengths O c ε) (L : PPL) {E : IET T} {s : σ} (hE : H.Ok E s) :
    ∃ D, Decomp.make O E s = .ok D ∧ DReach L O E s D [] := by
  obtain ⟨D, h, -⟩ := Decomp.make_spec H (ι := AddMonoidHom.id T) (fun _ _ h => h) hE
  exact ⟨D, h, .init h⟩

/-- **C57.** `decompositionStep()` on any component of any decomposition returns: no assertion fails, nothing is thrown, no undefined
behaviour.  The only exception is a call without limit; it may run forever and, if the SAF invariant is zero, overflow the internal limit
which is doubled in each round. -/
theorem C57_step (H : LawfulLengths O c ε) {L : PPL} (hL : L.Lawful) {E : IET T} {s : σ} (hE : H.Ok E s) {D : Decomp σ T}
    {steps : List DStep} (h : DReach L O E s D steps) {i : ℕ} (hi : i < D.comps.length) (fuel : ℕ) (limit : ℤ) :
    (∃ step D', D.decompositionStep L O fuel limit i = .ok (step, D')) ∨
    (limit = -1 ∧ (D.decompositionStep L O fuel limit i = .error .fuel ∨
      (D.decompositionStep L O fuel limit i = .error .ub ∧
        ∃ x v E', D.comps[i]? = some x ∧ x.iet.safInvariant (LWC.ops O) D.lengths = .ok (v, E') ∧ ∀ q ∈ v, q = 0))) := by
  have hinv := h.inv hL H (ι := AddMonoidHom.id T) (fun _ _ h => h) hE
  have hx : D.comps[i]? = some D.comps[i] := List.getElem?_eq_getElem hi
  rcases decompositionStep_spec (fun _ _ h => h) hL hinv hx fuel limit with ⟨step, D', h1, -⟩ | ⟨h1, h2⟩
  · exact .inl ⟨step, D', h1⟩
  · refine .inr ⟨h1, h2.imp_right (fun h2 => ⟨h2.1, D.comps[i], _, _, hx,
      safInvariant_spec (LWC.lawful H) (hinv.good _ (List.getElem_mem hi)).ok (hinv.good _ (List.getElem_mem hi)).cache, h2.2⟩)⟩

/-- **C57.** `decompose()` of a component returns, runs forever, or (only without limit) overflows its internal limit. -/
theorem decomposeComponent_no_error (H : LawfulLengths O c ε) {L : PPL} (hL : L.Lawful) {E : IET T} {s : σ} (hE : H.Ok E s)
    (target : Comp T → Bool) (limit : ℤ) : ∀ (n i : ℕ) {D : Decomp σ T} {steps : List DStep}, DReach L O E s D steps → i < D.comps.length →
    (∃ b D', D.decomposeComponent L O target limit n i = .ok (b, D')) ∨ D.decomposeComponent L O target limit n i = .error .fuel ∨
      (limit = -1 ∧ D.decomposeComponent L O target limit n i = .error .ub)
  | 0, _, _, _, _, _ => .inr (.inl rfl)
  | n + 1, i, D, steps, h, hi => by
    have hx : D.comps[i]? = some D.comps[i] := List.getElem?_eq_getElem hi
    unfold Decomp.decomposeComponent
    rw [Decomp.comp_ok hx, ok_bind]
    by_cases ht : target D.comps[i] = true
    · rw [if_pos ht]; exact .inl ⟨_, _, rfl⟩
    · rw [if_neg ht]
      rcases C57_step H hL hE h hi n limit with ⟨step, D₁, h1⟩ | ⟨h0, h1 | ⟨h1, -⟩⟩
      · rw [h1, ok_bind]
        have hD₁ := DReach.step n limit i h h1
        by_cases hs : step.result = .limitReached
        · simp only [hs, if_true]; exact .inl ⟨_, _, rfl⟩
        · simp only [hs, if_false]
          obtain ⟨-, x, x', -, hx', hsep, hnon, hother⟩ := C35_step H hL hE h h1
          have hi₁ : i < D₁.comps.length := (List.getElem?_eq_some_iff.1 hx').1
          cases hadd : step.additional with
          | none => exact decomposeComponent_no_error H hL hE target limit n i hD₁ hi₁
          | some j =>
            have hj : j < D₁.comps.length := by
              by_cases h3 : step.result = .separatingConnection
              · obtain ⟨y, g1, -, g2, -⟩ := hsep h3
                rw [hadd] at g2
                cases g2
                omega
              · by_cases h4 : step.result = .nonSeparatingConnection
                · obtain ⟨_, -, g2, -⟩ := hnon h4
                  rw [hadd] at g2
                  cases g2
                · have g2 := (hother h3 h4).2.1
                  rw [hadd] at g2
                  cases g2
            simp only
            rcases decomposeComponent_no_error H hL hE target limit n j hD₁ hj with ⟨b, D₂, h2⟩ | h2 | ⟨h0, h2⟩
            · rw [h2, ok_bind]
              obtain ⟨steps', h3, -, h4, -⟩ := decomposeComponent_spec H hL hE n j hD₁ h2
              rcases decomposeComponent_no_error H hL hE target limit n i h3 (by omega) with ⟨b', D₃, h5⟩ | h5 | ⟨h0, h5⟩
              · rw [h5, ok_bind]; exact .inl ⟨_, _, rfl⟩
              · rw [h5, error_bind]; exact .inr (.inl rfl)
              · rw [h5, error_bind]; exact .inr (.inr ⟨h0, rfl⟩)
            · rw [h2, error_bind]; exact .inr (.inl rfl)
            · rw [h2, error_bind]; exact .inr (.inr ⟨h0, rfl⟩)
      · rw [h1, error_bind]; exact .inr (.inl rfl)
      · rw [h1, error_bind]; exact .inr (.inr ⟨h0, rfl⟩)

theorem decomposeAll_no_error (H : LawfulLengths O c ε) {L : PPL} (hL : L.Lawful) {E : IET T} {s : σ} (hE : H.Ok E s)
    (target : Comp T → Bool) (limit : ℤ) (n : ℕ) : ∀ (is : List ℕ) {D : Decomp σ T} {steps : List DStep}, DReach L O E s D steps →
    (∀ i ∈ is, i < D.comps.length) →
    (∃ b D', D.decomposeAll L O target limit n is = .ok (b, D')) ∨ D.decomposeAll L O target limit n is = .error .fuel ∨
      (limit = -1 ∧ D.decomposeAll L O target limit n is = .error .ub)
  | [], _, _, _, _ => .inl ⟨_, _, rfl⟩
  | i :: is, D, steps, h, hi => by
    unfold Decomp.decomposeAll
    rcases decomposeComponent_no_error H hL hE target limit n i h (hi i (by simp)) with ⟨b, D₂, h2⟩ | h2 | ⟨h0, h2⟩
    · rw [h2, ok_bind]
      obtain ⟨steps', h3, -, h4, -⟩ := decomposeComponent_spec H hL hE n i h h2
      cases b with
      | false => exact .inl ⟨_, _, rfl⟩
      | true => exact decomposeAll_no_error H hL hE target limit n is h3 (fun j hj => lt_of_lt_of_le (hi j (by simp [hj])) h4)
    · rw [h2, error_bind]; exact .inr (.inl rfl)
    · rw [h2, error_bind]; exact .inr (.inr ⟨h0, rfl⟩)

/-- **C57.** `decompose()` with any target and limit returns, runs forever, or (only without limit) overflows its internal limit. -/
theorem C57_decompose (H : LawfulLengths O c ε) {L : PPL} (hL : L.Lawful) {E : IET T} {s : σ} (hE : H.Ok E s) {D : Decomp σ T}
    {steps : List DStep} (h : DReach L O E s D steps) (target : Comp T → Bool) (limit : ℤ) (fuel : ℕ) :
    (∃ b D', D.decompose L O target limit fuel = .ok (b, D')) ∨ D.decompose L O target limit fuel = .error .fuel ∨
      (limit = -1 ∧ D.decompose L O target limit fuel = .error .ub) :=
  decomposeAll_no_error H hL hE target limit fuel _ h (fun _ hi => List.mem_range.1 hi)

/-- The example with lengths 50, 5, 3, 7 and the limit 3: both functions return. -/
example (target : Comp ℤ → Bool) : ∃ D step D', Decomp.make (SLengths.ops intArith) Examples.intIET Examples.intState = .ok D ∧
    D.decompositionStep PPL.ideal (SLengths.ops intArith) 0 3 0 = .ok (step, D') ∧
    ((∃ r, D'.decompose PPL.ideal (SLengths.ops intArith) target 3 100 = .ok r) ∨
      D'.decompose PPL.ideal (SLengths.ops intArith) target 3 100 = .error .fuel) := by
  obtain ⟨D, h1, h2⟩ := C57_make Examples.hInt PPL.ideal Examples.int_ok
  have hi : 0 < D.comps.length := List.length_pos_of_ne_nil (h2.comps_ne Examples.hInt PPL.ideal_lawful Examples.int_ok)
  rcases C57_step Examples.hInt PPL.ideal_lawful Examples.int_ok h2 hi 0 3 with ⟨step, D', h3⟩ | ⟨h, -⟩
  · refine ⟨D, step, D', h1, h3, ?_⟩
    rcases C57_decompose Examples.hInt PPL.ideal_lawful Examples.int_ok (.step 0 3 0 h2 h3) target 3 100 with ⟨b, D'', h⟩ | h | ⟨h, -⟩
    · exact .inl ⟨_, h⟩
    · exact .inr h
    · cases h
  · cases h

end Verif
