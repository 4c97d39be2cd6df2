import Verif.Props.Decomposition
import Verif.ExamplesDecomp

/-!
# `decompose()` establishes its target
-/

namespace Verif

set_option linter.unusedSectionVars false

variable {σ T ε : Type} [CommRing T] [LinearOrder T] [IsStrictOrderedRing T] {O : LengthsOps σ T} {d : ℕ} {c : T →+ (Fin d → ℚ)}

/-- What decomposing the component `i` does. -/
theorem decomposeComponent_spec (H : LawfulLengths O c ε) {L : PPL} (hL : L.Lawful) {E : IET T} {s : σ} (hE : H.Ok E s)
    {target : Comp T → Bool} {limit : ℤ} : ∀ (n i : ℕ) {D D' : Decomp σ T} {steps : List DStep} {b : Bool}, DReach L O E s D steps →
    D.decomposeComponent L O target limit n i = .ok (b, D') →
    ∃ steps', DReach L O E s D' (steps ++ steps') ∧ i < D.comps.length ∧ D.comps.length ≤ D'.comps.length ∧
      (∀ j, j < D.comps.length → j ≠ i → D'.comps[j]? = D.comps[j]?) ∧
      (b = true → ∀ j x, D'.comps[j]? = some x → j = i ∨ D.comps.length ≤ j → target x = true) ∧
      (b = false → limit ≠ -1 ∧ ∃ st ∈ steps', st.result = .limitReached)
  | 0, i, D, D', steps, b, _, hr => by simp [Decomp.decomposeComponent] at hr
  | n + 1, i, D, D', steps, b, h, hr => by
    unfold Decomp.decomposeComponent at hr
    simp only [Decomp.comp, bind, Except.bind, pure, Except.pure] at hr
    cases hx : D.comps[i]? with
    | none => rw [hx] at hr; cases hr
    | some x =>
    rw [hx] at hr
    have hi : i < D.comps.length := by
      by_contra hc
      rw [List.getElem?_eq_none (by omega)] at hx
      cases hx
    dsimp only at hr
    split at hr
    · rename_i ht
      cases hr
      refine ⟨[], by simpa using h, hi, le_refl _, fun _ _ _ => rfl, ?_, by simp⟩
      intro _ j y hy hj
      rcases hj with rfl | hj
      · rw [hx] at hy; cases hy; exact ht
      · rw [List.getElem?_eq_none hj] at hy; cases hy
    · split at hr
      · cases hr
      · rename_i v hv
        obtain ⟨step, D₁⟩ := v
        dsimp only at hr
        have h1 : DReach L O E s D₁ (steps ++ [step]) := .step n limit i h hv
        obtain ⟨hother, x₀, x₁, hx₀, hx₁, hsplit, hmerge, hsame⟩ := C35_step H hL hE h hv
        have hlen : D.comps.length ≤ D₁.comps.length ∧ (step.additional = none → D₁.comps.length = D.comps.length) ∧
            (∀ j, step.additional = some j → j = D.comps.length ∧ D₁.comps.length = D.comps.length + 1) := by
          by_cases e1 : step.result = .separatingConnection
          · obtain ⟨y, f1, f2, f3, _⟩ := hsplit e1
            exact ⟨by omega, (fun e => by rw [e] at f3; cases f3), (fun j e => by rw [f3] at e; cases e; exact ⟨rfl, f1⟩)⟩
          · by_cases e2 : step.result = .nonSeparatingConnection
            · obtain ⟨y, f1, f3, _⟩ := hmerge e2
              exact ⟨by omega, (fun _ => f1), (fun j e => by rw [f3] at e; cases e)⟩
            · obtain ⟨f1, f3, _⟩ := hsame e1 e2
              exact ⟨by omega, (fun _ => f1), (fun j e => by rw [f3] at e; cases e)⟩
        have hunl : limit = -1 → step.result ≠ .limitReached := by
          obtain ⟨_, _, _, e, _⟩ := DReach.effect hL H hE h hv
          exact e
        have hother' : ∀ j, j < D.comps.length → j ≠ i → D₁.comps[j]? = D.comps[j]? := by
          intro j hj hji
          rw [List.getElem?_eq_getElem hj]
          exact (hother j _ hji (List.getElem?_eq_getElem hj)).1
        split at hr
        · rename_i hlim
          cases hr
          exact ⟨[step], h1, hi, hlen.1, hother', by simp, fun _ => ⟨fun e => hunl e hlim, step, by simp, hlim⟩⟩
        · split at hr
          · rename_i j hj
            obtain ⟨rfl, hl⟩ := hlen.2.2 j hj
            split at hr
            · cases hr
            · rename_i v hv2
              obtain ⟨b₂, D₂⟩ := v
              dsimp only at hr
              split at hr
              · cases hr
              · rename_i w hv3
                obtain ⟨b₃, D₃⟩ := w
                simp only [Except.ok.injEq, Prod.mk.injEq] at hr
                obtain ⟨rfl, rfl⟩ := hr
                obtain ⟨s2, g1, g2, g3, g4, g5, g6⟩ := decomposeComponent_spec H hL hE n _ h1 hv2
                obtain ⟨s3, k1, k2, k3, k4, k5, k6⟩ := decomposeComponent_spec H hL hE n _ g1 hv3
                refine ⟨step :: (s2 ++ s3), by simpa using k1, hi, by omega, ?_, ?_, ?_⟩
                · intro j hj hji
                  rw [k4 j (by omega) hji, g4 j (by omega) (by omega), hother' j hj hji]
                · intro hb j y hy hj
                  simp only [Bool.and_eq_true] at hb
                  by_cases e1 : j = i ∨ D₂.comps.length ≤ j
                  · exact k5 hb.2 j y hy e1
                  · rw [k4 j (by omega) (by omega)] at hy
                    exact g5 hb.1 j y hy (by omega)
                · intro hb
                  simp only [Bool.and_eq_false_iff] at hb
                  rcases hb with hb | hb
                  · obtain ⟨q0, st, q1, q2⟩ := g6 hb; exact ⟨q0, st, by simp [q1], q2⟩
                  · obtain ⟨q0, st, q1, q2⟩ := k6 hb; exact ⟨q0, st, by simp [q1], q2⟩
          · rename_i hadd
            obtain ⟨s2, g1, g2, g3, g4, g5, g6⟩ := decomposeComponent_spec H hL hE n _ h1 hr
            have hl := hlen.2.1 hadd
            refine ⟨step :: s2, by simpa using g1, hi, by omega, ?_, ?_, ?_⟩
            · intro j hj hji
              rw [g4 j (by omega) hji, hother' j hj hji]
            · intro hb j y hy hj
              exact g5 hb j y hy (by omega)
            · intro hb
              obtain ⟨q0, st, q1, q2⟩ := g6 hb; exact ⟨q0, st, by simp [q1], q2⟩

theorem decomposeAll_spec (H : LawfulLengths O c ε) {L : PPL} (hL : L.Lawful) {E : IET T} {s : σ} (hE : H.Ok E s)
    {target : Comp T → Bool} {limit : ℤ} {fuel : ℕ} : ∀ (is : List ℕ) {D D' : Decomp σ T} {steps : List DStep} {b : Bool} {n : ℕ},
    DReach L O E s D steps → n ≤ D.comps.length → (∀ i ∈ is, i < n) → is.Nodup →
    (∀ j x, D.comps[j]? = some x → j ∉ is → target x = true) →
    D.decomposeAll L O target limit fuel is = .ok (b, D') →
    ∃ steps', DReach L O E s D' (steps ++ steps') ∧ (b = true → ∀ x ∈ D'.comps, target x = true) ∧
      (b = false → limit ≠ -1 ∧ ∃ st ∈ steps', st.result = .limitReached)
  | [], D, D', steps, b, n, h, _, _, _, ht, hr => by
    cases hr
    refine ⟨[], by simpa using h, ?_, by simp⟩
    intro _ x hx
    obtain ⟨j, hj⟩ := List.mem_iff_getElem?.1 hx
    exact ht j x hj (by simp)
  | i :: is, D, D', steps, b, n, h, hn, his, hnd, ht, hr => by
    unfold Decomp.decomposeAll at hr
    simp only [bind, Except.bind, pure, Except.pure] at hr
    split at hr
    · cases hr
    · rename_i v hv
      obtain ⟨b₁, D₁⟩ := v
      dsimp only at hr
      obtain ⟨s1, g1, g2, g3, g4, g5, g6⟩ := decomposeComponent_spec H hL hE fuel i h hv
      rw [List.nodup_cons] at hnd
      split at hr
      · rename_i hb
        have hb : b₁ = true := hb
        obtain ⟨s2, k1, k2, k3⟩ := decomposeAll_spec H hL hE is (n := n) g1 (by omega) (fun j hj => his j (List.mem_cons_of_mem _ hj))
          hnd.2 (by
            intro j x hx hj
            by_cases e : j = i ∨ D.comps.length ≤ j
            · exact g5 hb j x hx e
            · push Not at e
              rw [g4 j e.2 e.1] at hx
              exact ht j x hx (by simp [e.1, hj])) hr
        exact ⟨s1 ++ s2, by simpa using k1, k2, fun e => by
          obtain ⟨q0, st, q1, q2⟩ := k3 e; exact ⟨q0, st, by simp [q1], q2⟩⟩
      · rename_i hb
        cases hr
        exact ⟨s1, g1, by simp, fun _ => g6 (by simpa using hb)⟩

/-- **C38.** Whatever `decompose()` does is a sequence of `decompositionStep`s.  If it returns `true`, the target holds for every component of
the decomposition; if it returns `false`, then there is a limit and one of these steps has reached it. -/
theorem C38_target (H : LawfulLengths O c ε) {L : PPL} (hL : L.Lawful) {E : IET T} {s : σ} (hE : H.Ok E s) {D : Decomp σ T}
    {steps : List DStep} (h : DReach L O E s D steps) {target : Comp T → Bool} {limit : ℤ} {fuel : ℕ} {b : Bool} {D' : Decomp σ T}
    (hr : D.decompose L O target limit fuel = .ok (b, D')) :
    ∃ steps', DReach L O E s D' (steps ++ steps') ∧ (b = true → ∀ x ∈ D'.comps, target x = true) ∧
      (b = false → limit ≠ -1 ∧ ∃ st ∈ steps', st.result = .limitReached) := by
  refine decomposeAll_spec H hL hE (n := D.comps.length) _ h (le_refl _) (fun i hi => List.mem_range.1 hi) List.nodup_range ?_ hr
  intro j x hx hj
  rw [List.mem_range] at hj
  rw [List.getElem?_eq_none (by omega)] at hx
  cases hx

/-- **C38.** The same for `decompose()` on a component: the target holds for that component and everything that has been split off, all other components
have not been changed. -/
theorem C38_component (H : LawfulLengths O c ε) {L : PPL} (hL : L.Lawful) {E : IET T} {s : σ} (hE : H.Ok E s) {D : Decomp σ T}
    {steps : List DStep} (h : DReach L O E s D steps) {target : Comp T → Bool} {limit : ℤ} {fuel i : ℕ} {D' : Decomp σ T}
    (hr : D.decomposeComponent L O target limit fuel i = .ok (true, D')) :
    ∀ j x, D'.comps[j]? = some x → if j ≠ i ∧ j < D.comps.length then D.comps[j]? = some x else target x = true := by
  obtain ⟨_, _, _, _, h4, h5, _⟩ := decomposeComponent_spec H hL hE fuel i h hr
  intro j x hx
  split
  · rename_i hj
    rw [← h4 j hj.2 hj.1, hx]
  · rename_i hj
    exact h5 rfl j x hx (by omega)

/-- **C38.** With the default target, a decomposition that succeeded consists of components that are cylinders and of components for
which it is known that they are without periodic trajectories. -/
theorem C38_default (H : LawfulLengths O c ε) {L : PPL} (hL : L.Lawful) {E : IET T} {s : σ} (hE : H.Ok E s) {D : Decomp σ T}
    {steps : List DStep} (h : DReach L O E s D steps) {limit : ℤ} {fuel : ℕ} {D' : Decomp σ T}
    (hr : D.decompose L O Decomp.defaultTarget limit fuel = .ok (true, D')) :
    ∀ x ∈ D'.comps, (x.cylinder = some true ∧ x.withoutPeriodicTrajectory = some false) ∨
      (x.cylinder = some false ∧ x.withoutPeriodicTrajectory = some true) := by
  obtain ⟨steps', h1, h2, _⟩ := C38_target H hL hE h hr
  intro x hx
  have h3 := h2 rfl x hx
  obtain ⟨e1, e2, _⟩ := C37_exclusive H hL hE h1 hx
  simp only [Decomp.defaultTarget, Bool.or_eq_true, decide_eq_true_eq] at h3
  rcases h3 with h3 | h3
  · exact .inl ⟨h3, e2.2 h3⟩
  · exact .inr ⟨e1.2 h3, h3⟩

/-- A decomposition always has a component. -/
theorem DReach.comps_ne (H : LawfulLengths O c ε) {L : PPL} (hL : L.Lawful) {E : IET T} {s : σ} (hE : H.Ok E s) {D : Decomp σ T}
    {steps : List DStep} (h : DReach L O E s D steps) : D.comps ≠ [] := by
  induction h with
  | init h =>
    obtain ⟨D, h1, h2, _⟩ := Decomp.make_spec H (ι := AddMonoidHom.id T) strictMono_id hE
    rw [h1] at h
    cases h
    simp [h2]
  | @step D₁ D₂ steps st fuel limit i h hr ih =>
    obtain ⟨_, _, e, _⟩ := DReach.effect hL H hE h hr
    generalize hcs : D₂.comps = cs at e
    cases e <;> simp [ih]

/-- **C38.** The converse is visible to users as non-termination: if a target is never met, then `decompose()` without a limit does not return. -/
theorem C38_unsatisfiable (H : LawfulLengths O c ε) {L : PPL} (hL : L.Lawful) {E : IET T} {s : σ} (hE : H.Ok E s) {D : Decomp σ T}
    {steps : List DStep} (h : DReach L O E s D steps) {target : Comp T → Bool} (ht : ∀ x, target x = false) (fuel : ℕ) :
    ∀ r, D.decompose L O target (-1) fuel ≠ .ok r := by
  rintro ⟨b, D'⟩ hr
  obtain ⟨steps', h1, h2, h3⟩ := C38_target H hL hE h hr
  cases b with
  | false => exact (h3 rfl).1 rfl
  | true =>
    obtain ⟨x, hx⟩ := List.exists_mem_of_ne_nil _ (DReach.comps_ne H hL hE h1)
    have := h2 rfl x hx
    rw [ht] at this
    cases this

/-- A decomposition on which `decompose()` succeeds, and one on which it gives up. -/
example (L : PPL) :
    ((Decomp.make (SLengths.ops intArith) Examples.intIET Examples.intState).bind (fun D =>
      (D.decompose L (SLengths.ops intArith) Decomp.defaultTarget (-1) 20).map (fun r =>
        (r.1, r.2.comps.map (fun x => (x.iet.top, x.cylinder)))))) = .ok (true, [([2], some true), ([3], some true)]) ∧
    ((Decomp.make (SLengths.ops intArith) Examples.intIET Examples.intState).bind (fun D =>
      (D.decompose L (SLengths.ops intArith) Decomp.defaultTarget 0 20).map (fun r =>
        (r.1, r.2.comps.map (fun x => (x.iet.top, x.cylinder)))))) = .ok (false, [([0, 1, 2, 3], none)]) :=
  ⟨rfl, rfl⟩

end Verif
