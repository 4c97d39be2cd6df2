import Verif.Proofs.ThreeIntervals
import Verif.Proofs.Found
import Verif.Proofs.Confluence
import Verif.Props.RankTwo
import Verif.Props.Cylinders

/-!
# C107: IETs with at most three intervals decompose completely
-/

namespace Verif

set_option linter.unusedSectionVars false
set_option linter.unusedSimpArgs false

variable {σ T ε : Type} [CommRing T] [LinearOrder T] [IsStrictOrderedRing T] {O : LengthsOps σ T} {d : ℕ} {c : T →+ (Fin d → ℚ)}

theorem combines_two {A : AIET T} (hA : A.Valid) (h2 : A.top.length = 2) (hirr : A.Irreducible) : ∃ α β i j, A.Combines α β i j := by
  obtain ⟨top, bottom, len⟩ := A
  match top, h2 with
  | [x, y], _ =>
    have hxy : x ≠ y := by simpa using hA.nodup
    have px := hA.pos x (by simp)
    have py := hA.pos y (by simp)
    simp only at px py
    have hp : bottom.Perm [x, y] := by first | exact hA.perm | exact hA.perm.symm
    have h1 := hirr 1 (by simp) (by simp)
    have hb : bottom = [x, y] ∨ bottom = [y, x] := by
      have hb : bottom ∈ ([x, y] : List Label).permutations := List.mem_permutations.mpr hp
      simpa [List.permutations, List.permutationsAux, List.permutationsAux.rec, List.permutationsAux2] using hb
    rcases hb with rfl | rfl
    · exact absurd (List.Perm.refl _) h1
    · refine ⟨len y, len x, fun l => if l = x then 1 else 0, fun l => if l = x then 0 else 1, ⟨⟨py, px⟩, ?_, ?_, ?_, ?_⟩⟩
      · simp [hxy, hxy.symm]
      · simp [AIET.transl, off, hxy, hxy.symm]
      · simp [AIET.total, sumLen]
        linarith
      · intro f g
        simp [AIET.saf, AIET.transl, off, hxy, hxy.symm]
        ring

/-- Irreducible IETs with at most three intervals that have a relation between their translations have periodic points. -/
theorem few_periodic (hc : ∀ x, c x = 0 → x = 0) {B : AIET T} (hB : B.Valid) (h3 : B.top.length ≤ 3) (hirr : B.Irreducible) (hrel : PosRelation c B) :
    ∃ x, Periodic B.Maps x := by
  have h0 : B.top.length ≠ 0 := by
    intro h0
    obtain ⟨n, ⟨a, ha, -⟩, -⟩ := (posRelation_iff hc hB.nodup).mp hrel
    rw [List.eq_nil_of_length_eq_zero h0] at ha
    simp at ha
  by_cases h1 : B.top.length = 1
  · exact single_periodic hB h1
  have hcomb : ∃ α β i j, B.Combines α β i j := by
    rcases (by omega : B.top.length = 2 ∨ B.top.length = 3) with h | h
    · exact combines_two hB h hirr
    · exact combines_three hB h hirr
  obtain ⟨α, β, i, j, hcomb⟩ := hcomb
  obtain ⟨n, hn, hs⟩ := (posRelation_iff hc hB.nodup).mp hrel
  obtain ⟨N, M, hN, e⟩ := hcomb.relation hn hs
  obtain ⟨a, ha⟩ : ∃ a, a ∈ B.top := List.exists_mem_of_length_pos (by omega)
  have hd := hB.maps_dom (⟨a, ha, le_rfl, by have := hB.pos a ha; linarith, rfl⟩ : B.Maps (off B.len B.top a) _)
  exact ⟨_, hcomb.periodic hB (ι := AddMonoidHom.id T) (fun _ _ h => h) hN e hd.1 hd.2⟩

/-- IETs with at most three intervals settle after finitely many rounds. -/
theorem exists_settles_few [Archimedean T] (c : T →+ (Fin d → ℚ)) (hc : ∀ x, c x = 0 → x = 0) {A : AIET T} (hA : A.Valid) (h3 : A.top.length ≤ 3) :
    ∃ N, Settles c A N := by
  by_cases hp : ∃ x, Periodic A.Maps x
  · obtain ⟨N, hN⟩ := exists_endsBy hA (.inl hp)
    exact ⟨N, hN.settles⟩
  · refine ⟨0, fun n _ B hB hirr hrel => hp ?_⟩
    have hs := rounds_steps hA hB
    obtain ⟨δ, hf⟩ := hs.fwd hA
    exact hf.periodic_iff.mpr (few_periodic hc (rounds_valid hA hB) (by rw [hs.top_perm.length_eq]; exact h3) hirr hrel)

/-- **C107** For every IET with at most three intervals in every reachable state, there is a number of rounds of induction that suffices: with this limit, and with
all larger limits, `induce()` does not report LIMIT_REACHED. -/
theorem C107_induce [Archimedean T] (H : LawfulLengths O c ε) (hc : ∀ x, c x = 0 → x = 0) {L : PPL} (hL : L.Lawful) {w : World σ T} (h : Reachable H L w)
    {E : IET T} (hE : E ∈ w.pieces) (h3 : E.top.length ≤ 3) :
    ∃ N : ℕ, ∀ limit : ℕ, N ≤ limit → ∀ fuel, ∃ step E' s', E.induce L O fuel limit w.lengths = .ok (step, E', s') ∧ step.result ≠ .limitReached := by
  have hg := h.good hL hE
  obtain ⟨N, hN⟩ := exists_settles_few c hc hg.ok.valid h3
  refine ⟨N, fun limit hl fuel => ?_⟩
  rcases induce_spec H hL fuel limit E w.lengths hg with ⟨-, h1⟩ | ⟨step, E', s', h1, -, hg', -⟩
  · omega
  refine ⟨step, E', s', h1, fun hr => ?_⟩
  cases induce_rounds H hL hg h1 with
  | cylinder => cases hr
  | auto => cases hr
  | all _ hit hf =>
    cases hf with
    | separating => cases hr
    | nonSeparating => cases hr
    | boshernitzan => cases hr
    | limit _ _ t3 _ t5 =>
      rw [Int.toNat_natCast] at hit
      exact hN limit hl _ hit t3 (t5.elim (posRelation_of_saf hc (rounds_valid hg.ok.valid hit)) id)
  | found _ _ _ hf hh =>
    cases hf with
    | separating => cases hr
    | nonSeparating => cases hr
    | boshernitzan => cases hr
    | limit _ _ _ t4 => exact absurd hh t4

theorem DReach.few (H : LawfulLengths O c ε) {L : PPL} (hL : L.Lawful) {E : IET T} {s : σ} (hE : H.Ok E s) (h3 : E.top.length ≤ 3)
    {D : Decomp σ T} {steps : List DStep} (h : DReach L O E s D steps) {x : Comp T} (hx : x ∈ D.comps) : x.iet.top.length ≤ 3 := by
  have := h.sum_length H hL hE
  have := List.single_le_sum (fun _ _ => Nat.zero_le _) _ (List.mem_map_of_mem (f := fun x : Comp T => x.iet.top.length) hx)
  omega

/-- **C107** When an IET with at most three intervals is decomposed, there is a number of rounds of induction that suffices for each component in each state: with
this limit, and with all larger limits, `decompositionStep()` does not report LIMIT_REACHED. -/
theorem C107_decompositionStep [Archimedean T] (H : LawfulLengths O c ε) (hc : ∀ x, c x = 0 → x = 0) {L : PPL} (hL : L.Lawful) {E : IET T} {s : σ}
    (hE : H.Ok E s) (h3 : E.top.length ≤ 3) {D : Decomp σ T} {steps : List DStep} (h : DReach L O E s D steps) {i : ℕ} (hi : i < D.comps.length) :
    ∃ N : ℕ, ∀ limit : ℕ, N ≤ limit → ∀ fuel, ∃ step D', D.decompositionStep L O fuel limit i = .ok (step, D') ∧ step.result ≠ .limitReached := by
  have hinv := h.inv hL H (ι := AddMonoidHom.id T) (fun _ _ h => h) hE
  have hx := List.getElem?_eq_getElem hi
  obtain ⟨N, hN⟩ := exists_settles_few c hc (hinv.good _ (List.getElem_mem hi)).ok.valid (h.few H hL hE h3 (List.getElem_mem hi))
  refine ⟨N, fun limit hl fuel => ?_⟩
  obtain ⟨step, D', h1, -⟩ := decompositionStepBounded_spec (fun _ _ h => h) hL hinv hx (limit := (limit : ℤ)) (by omega)
  refine ⟨step, D', ?_, fun hr => ?_⟩
  · unfold Decomp.decompositionStep
    rw [if_neg (by omega), h1]
  · obtain ⟨x', -, -, h2, h3, h4, -⟩ := bounded_rounds hL hc hinv hx h1 hr
    exact hN limit hl _ h2 h3 h4

/-- **C107** From every state of the decomposition of an IET with at most three intervals, `decompose()` returns true and all components are known to be
cylinders or known to be without periodic trajectories then.  The exception are decompositions in which an `int` could overflow since some component with vanishing
SAF invariant admits more than a billion rounds of induction. -/
theorem C107_decompose [Archimedean T] (H : LawfulLengths O c ε) (hc : ∀ x, c x = 0 → x = 0) {L : PPL} (hL : L.Lawful) {E : IET T} {s : σ}
    (hE : H.Ok E s) (h3 : E.top.length ≤ 3)
    (hover : ∀ D steps, DReach L O E s D steps → ∀ x ∈ D.comps, (∀ v ∈ safList c (H.abs x.iet D.lengths.inner), v = 0) →
      ¬ ∃ n B, 2 ^ 30 - 1 ≤ n ∧ Iter Round n (H.abs x.iet D.lengths.inner) B)
    {D : Decomp σ T} {steps : List DStep} (h : DReach L O E s D steps) :
    ∃ fuel D', (∀ n, fuel ≤ n → D.decompose L O Decomp.defaultTarget (-1) n = .ok (true, D')) ∧
      ∀ x ∈ D'.comps, (x.cylinder = some true ∧ x.withoutPeriodicTrajectory = some false) ∨
        (x.cylinder = some false ∧ x.withoutPeriodicTrajectory = some true) := by
  obtain ⟨F, D', h1⟩ := decomposeAll_settles H hL hE (limit := -1) (by
    intro D steps i x h hi
    have hinv := h.inv hL H (ι := AddMonoidHom.id T) (fun _ _ h => h) hE
    have hx := List.mem_of_getElem? hi
    obtain ⟨N, hN⟩ := exists_settles_few c hc (hinv.good _ hx).ok.valid (h.few H hL hE h3 hx)
    obtain ⟨r, h1, ⟨step, D', rfl⟩ | ⟨-, h2, h3⟩⟩ := step_settles hL hc hinv hi hN
    · refine ⟨N + 2, step, D', ?_, h1⟩
      obtain ⟨_, -, -, hl, -⟩ := h.effect hL H hE (h1 (N + 2) (le_refl _))
      exact hl rfl
    · exact absurd h3 (hover D steps h x hx h2)) (target := Decomp.defaultTarget) (by
    rintro x (hx | hx) <;> simp [Decomp.defaultTarget, hx]) (List.range D.comps.length) h (fun i hi => List.mem_range.mp hi)
  exact ⟨F, D', h1, C38_default H hL hE h (h1 F (le_refl _))⟩

/-! ### Examples -/

theorem Examples.q2Three_ok : Examples.hQ2.Ok (IET.fresh [0, 1, 2] [2, 1, 0]) ⟨[], [⟨1, 0⟩, ⟨0, 1⟩, ⟨2, 0⟩]⟩ := Examples.sample_ok _ _ _ _ (by decide)

/-- Lengths `1`, `√2`, `2` in reversed order. -/
example : ∃ N : ℕ, ∀ limit : ℕ, N ≤ limit → ∀ fuel, ∃ step E' s', (IET.fresh [0, 1, 2] [2, 1, 0] : IET Examples.Q2).induce PPL.ideal
    (SLengths.ops Examples.q2Arith) fuel limit ⟨[], [⟨1, 0⟩, ⟨0, 1⟩, ⟨2, 0⟩]⟩ = .ok (step, E', s') ∧ step.result ≠ .limitReached :=
  C107_induce Examples.hQ2 Examples.q2_faithful PPL.ideal_lawful (Examples.sample_reachable Examples.hQ2 PPL.ideal Examples.q2Three_ok)
    (E := IET.fresh [0, 1, 2] [2, 1, 0]) (by simp) (by decide)

example : ∃ D, Decomp.make (SLengths.ops Examples.q2Arith) (IET.fresh [0, 1, 2] [2, 1, 0]) ⟨[], [⟨1, 0⟩, ⟨0, 1⟩, ⟨2, 0⟩]⟩ = .ok D ∧
    ∃ N : ℕ, ∀ limit : ℕ, N ≤ limit → ∀ fuel, ∃ step D', D.decompositionStep PPL.ideal (SLengths.ops Examples.q2Arith) fuel limit 0 = .ok (step, D') ∧
      step.result ≠ .limitReached := by
  obtain ⟨D, h1, h2, -⟩ := Decomp.make_spec Examples.hQ2 (ι := AddMonoidHom.id Examples.Q2) (fun _ _ h => h) Examples.q2Three_ok
  exact ⟨D, h1, C107_decompositionStep Examples.hQ2 Examples.q2_faithful PPL.ideal_lawful Examples.q2Three_ok (by decide) (.init h1) (by rw [h2]; simp)⟩

theorem Examples.intThree_ok : Examples.hInt.Ok (IET.fresh [0, 1, 2] [2, 1, 0]) ⟨[], [5, 2, 7]⟩ := Examples.sample_ok _ _ _ _ (by decide)

/-- There are few rounds of induction for the lengths `5`, `2`, `7`. -/
theorem Examples.intThree_rounds (D : Decomp (SLengths ℤ) ℤ) (steps : List DStep)
    (h : DReach PPL.ideal (SLengths.ops intArith) (IET.fresh [0, 1, 2] [2, 1, 0]) ⟨[], [5, 2, 7]⟩ D steps) (x : Comp ℤ) (hx : x ∈ D.comps) :
    ¬ ∃ n B, 2 ^ 30 - 1 ≤ n ∧ Iter Round n (Examples.hInt.abs x.iet D.lengths.inner) B := by
  rintro ⟨n, B, hn, hB⟩
  have hmult : Mult (1 : ℤ) (fun a => [5, 2, 7].getD a 0) (Examples.hInt.abs (IET.fresh [0, 1, 2] [2, 1, 0]) ⟨[], [5, 2, 7]⟩) := by
    intro a ha
    have ha' : a ∈ [0, 1, 2] := ha
    simp at ha'
    rcases ha' with rfl | rfl | rfl <;> rfl
  obtain ⟨k', k1, k2⟩ := (h.small Examples.hInt PPL.ideal_lawful Examples.intThree_ok (u := 1) (by norm_num) hmult).1.mult hx
  have hv := ((h.inv PPL.ideal_lawful Examples.hInt (ι := AddMonoidHom.id ℤ) (fun _ _ h => h) Examples.intThree_ok).good x hx).ok.valid
  have hlog := rounds_log (u := (1 : ℤ)) (by norm_num) hv k2 hB
  have h3 := h.few Examples.hInt PPL.ideal_lawful Examples.intThree_ok (by decide) hx
  have hsum : (x.iet.top.map (fun a => Nat.log 2 (k' a))).sum ≤ x.iet.top.length * 2 := by
    have := List.sum_le_card_nsmul (x.iet.top.map (fun a => Nat.log 2 (k' a))) 2 (by
      intro y hy
      obtain ⟨a, ha, rfl⟩ := List.mem_map.mp hy
      have h7 : ([5, 2, 7] : List ℕ).getD a 0 ≤ 7 := by
        match a with
        | 0 => decide
        | 1 => decide
        | 2 => decide
        | _ + 3 => simp
      exact (Nat.log_mono_right ((k1 a ha).trans h7)).trans (by decide))
    simpa using this
  have hlog' : 2 * n ≤ x.iet.top.length * (1 + (x.iet.top.map (fun a => Nat.log 2 (k' a))).sum) := hlog
  have : x.iet.top.length * (1 + (x.iet.top.map (fun a => Nat.log 2 (k' a))).sum) ≤ 3 * (1 + 6) :=
    Nat.mul_le_mul h3 (by omega)
  omega

/-- Lengths `5`, `2`, `7` in reversed order: no `int` overflows since there are few rounds of induction. -/
example : ∃ D D' fuel, Decomp.make (SLengths.ops intArith) (IET.fresh [0, 1, 2] [2, 1, 0]) ⟨[], [5, 2, 7]⟩ = .ok D ∧
    D.decompose PPL.ideal (SLengths.ops intArith) Decomp.defaultTarget (-1) fuel = .ok (true, D') := by
  obtain ⟨D, h1, -⟩ := Decomp.make_spec Examples.hInt (ι := AddMonoidHom.id ℤ) (fun _ _ h => h) Examples.intThree_ok
  obtain ⟨F, D', h2, -⟩ := C107_decompose Examples.hInt (fun x hx => by simpa [intCoef] using congrFun hx 0) PPL.ideal_lawful Examples.intThree_ok
    (by decide) (fun D steps h x hx _ => Examples.intThree_rounds D steps h x hx) (.init h1)
  exact ⟨D, D', F, h1, h2 F le_rfl⟩

end Verif
