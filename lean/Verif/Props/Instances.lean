import Verif.Props.Counter
import Verif.Props.Confluence
import Verif.Props.Machine
import Verif.Props.Rounds
import Verif.Props.Split
import Verif.Props.Boshernitzan

/-!
# Further instances of the theorems

Theorems applied to concrete IETs, to show that their hypotheses can be met.  The rotation with lengths `1` and `√2` meets the
hypotheses of the theorems about IETs without saddle connections.
-/

namespace Verif.Examples

/-- The rotation. -/
def q2World : World (SLengths Q2) Q2 := ⟨[q2RotIET], q2RotState⟩

theorem q2World_reachable : Reachable hQ2 PPL.ideal q2World := .init (by simp; exact ⟨rfl, q2Rot_ok⟩) (by simp)

theorem q2Rot_mem : q2RotIET ∈ q2World.pieces := by simp [q2World]

theorem q2Rot_saf : ¬ ∀ x ∈ safList q2Coef (hQ2.abs q2RotIET q2RotState), x = 0 := by
  have hsaf : q2RotIET.rawSaf (SLengths.ops q2Arith) q2RotState = .ok [2] := by decide +kernel
  rw [rawSaf_spec hQ2 q2Rot_ok] at hsaf
  rw [Except.ok.inj hsaf]
  simp

theorem q2Rot_free : ¬ (hQ2.abs q2RotIET q2RotState).HasConnection := by
  rintro ⟨t, ht, b, hb, n, hn⟩
  exact C21_keane hQ2 PPL.ideal_lawful q2Rot_ok
    (C69_noSaddleConnection hQ2 q2_faithful PPL.ideal_lawful q2Rot_ok (by decide) q2Rot_irreducible q2Rot_independent)
    (ι := AddMonoidHom.id Q2) (fun _ _ h => h) ht hb n hn

/-- C69: `induce()` reports WITHOUT_PERIODIC_TRAJECTORY_BOSHERNITZAN for all limits. -/
theorem q2Rot_induce (limit : ℕ) : ∃ step E' s', q2RotIET.induce PPL.ideal (SLengths.ops q2Arith) 0 limit q2RotState = .ok (step, E', s') ∧
    step.result = .withoutPeriodicTrajectoryBoshernitzan := by
  obtain ⟨step, E', s', h1, h2, -⟩ := C69_induce hQ2 q2_faithful PPL.ideal_lawful q2World_reachable q2Rot_mem (by decide) q2Rot_irreducible
    q2Rot_independent limit 0
  exact ⟨step, E', s', h1, h2⟩

/-- C20, C73, C75: there are no periodic orbits and no connections, all orbits are dense. -/
example : (¬ ∃ x, Periodic ((hQ2.abs q2RotIET q2RotState).map (AddMonoidHom.id Q2)).Maps x) ∧
    ¬ (hQ2.abs q2RotIET q2RotState).HasConnection ∧ ((hQ2.abs q2RotIET q2RotState).map (AddMonoidHom.id Q2)).Minimal := by
  have hnever : ∀ N : ℕ, ∃ limit : ℕ, N ≤ limit ∧ ∃ fuel step E' s', q2RotIET.induce PPL.ideal (SLengths.ops q2Arith) fuel limit q2RotState = .ok (step, E', s') ∧
      (step.result = .limitReached ∨ step.result = .withoutPeriodicTrajectoryBoshernitzan) := by
    intro N
    obtain ⟨step, E', s', h1, h2⟩ := q2Rot_induce N
    exact ⟨N, le_refl _, 0, step, E', s', h1, .inr h2⟩
  have hι : StrictMono (AddMonoidHom.id Q2) := fun _ _ h => h
  refine ⟨?_, (C73_induce_never hQ2 PPL.ideal_lawful q2World_reachable q2Rot_mem hnever hι).1,
    C75_induce_never hQ2 PPL.ideal_lawful q2World_reachable q2Rot_mem hnever hι⟩
  obtain ⟨step, E', s', h1, h2⟩ := q2Rot_induce 17
  exact (C20_induce_no_periodic hQ2 PPL.ideal_lawful q2World_reachable q2Rot_mem h1 h2 hι).1

/-- C76: there are `2 ^ 31` rounds of Zorich induction. -/
example : ∃ B, Iter Round (2 ^ 31) (hQ2.abs q2RotIET q2RotState) B :=
  (C76_overflow hQ2 PPL.ideal_lawful q2World_reachable q2Rot_mem (by decide) q2Rot_saf).mp
    (C76_minimal hQ2 PPL.ideal_lawful q2World_reachable q2Rot_mem (by decide) q2Rot_saf q2Rot_free).2

/-- C69, C74, C75: the decomposition is complete before the first step. -/
example : ∃ D D' step, DReach PPL.ideal (SLengths.ops q2Arith) q2RotIET q2RotState D [] ∧ D.Complete hQ2 ∧
    DReach PPL.ideal (SLengths.ops q2Arith) q2RotIET q2RotState D' [step] ∧ D'.Complete hQ2 ∧
    step.result ≠ .limitReached ∧ (∀ x ∈ D'.comps, x.iet.top.length = 1 ∨ ((hQ2.abs x.iet D'.lengths.inner).map (AddMonoidHom.id Q2)).Minimal) := by
  obtain ⟨D, h1, h2, h3, -⟩ := Decomp.make_spec hQ2 (ι := AddMonoidHom.id Q2) (fun _ _ h => h) q2Rot_ok
  have hD : DReach PPL.ideal (SLengths.ops q2Arith) q2RotIET q2RotState D [] := .init h1
  have hc : D.Complete hQ2 := by
    intro x hx
    rw [h2] at hx
    obtain rfl := List.mem_singleton.mp hx
    rw [h3]
    exact q2Rot_free
  obtain ⟨step, D', h4, h5, h6⟩ := C69_decompositionStep hQ2 q2_faithful PPL.ideal_lawful q2Rot_ok q2Rot_independent hD (i := 0) (by rw [h2]; simp)
    (limit := -1) (by decide)
  have hD' : DReach PPL.ideal (SLengths.ops q2Arith) q2RotIET q2RotState D' [step] := .step 1 (-1) 0 hD (h4 1 (by decide))
  obtain ⟨g1, g2, g3⟩ := C74_finished hQ2 PPL.ideal_lawful q2Rot_ok hD hc (h4 1 (by decide))
  exact ⟨D, D', step, hD, hc, hD', g3, h5, fun x hx => C75_component hQ2 PPL.ideal_lawful q2Rot_ok hD' (fun _ _ h => h) hx (g3 x hx)⟩

/-! ### Histories -/

/-- Two rotations that share their lengths. -/
def pairWorld : World (SLengths ℤ) ℤ := ⟨[IET.fresh [0, 1] [1, 0], IET.fresh [2, 3] [3, 2]], ⟨[], [5, 3, 7, 4]⟩⟩

theorem pairWorld_reachable : Reachable hInt PPL.ideal pairWorld := by
  refine .init ?_ (by decide)
  intro E hE
  simp only [pairWorld, List.mem_cons, List.not_mem_nil, or_false] at hE
  rcases hE with rfl | rfl <;> exact ⟨rfl, sample_ok _ _ _ _ (by decide)⟩

theorem pairWorld_run : ∃ w', Run PPL.ideal (SLengths.ops intArith) [.zorichInduction 1, .swap 1, .zorichInduction 1] pairWorld w' ∧
    w'.pieces.map (fun E => (E.top, E.bottom, E.swapped)) = [([0, 1], [1, 0], false), ([3, 2], [2, 3], true)] ∧
    w'.lengths.lengths = [5, 3, 3, 1] :=
  ⟨_, .cons 0 _ rfl (.cons 0 _ rfl (.cons 0 _ rfl .nil)), rfl, rfl⟩

/-- C05, C06, C10: what happens to the second rotation does not affect the first; its SAF invariant changes its sign. -/
example : ∃ w', Run PPL.ideal (SLengths.ops intArith) [.zorichInduction 1, .swap 1, .zorichInduction 1] pairWorld w' ∧
    w'.pieces[0]? = some (IET.fresh [0, 1] [1, 0]) ∧ (SLengths.ops intArith).get 0 w'.lengths = .ok 5 ∧
    ∃ E', w'.pieces[1]? = some E' ∧ E'.swapped = true := by
  obtain ⟨w', hr, -⟩ := pairWorld_run
  obtain ⟨h1, h2, -⟩ := C10_frame hInt PPL.ideal_lawful pairWorld_reachable hr (j := 0) (by decide) (F := IET.fresh [0, 1] [1, 0]) rfl (ι := AddMonoidHom.id ℤ)
  obtain ⟨E', h3, h4⟩ := C05_swapped_history hInt PPL.ideal_lawful pairWorld_reachable hr (i := 1) (E := IET.fresh [2, 3] [3, 2]) rfl
  exact ⟨w', hr, h1, h2 0 (by decide), E', h3, h4⟩

theorem q2World_run : ∃ w' E', Run PPL.ideal (SLengths.ops q2Arith) [.zorichInduction 0, .swap 0, .zorichInduction 0] ⟨[q2IET], q2State⟩ w' ∧
    w'.pieces = [E'] ∧ E'.swapped = true :=
  ⟨_, _, .cons 0 _ rfl (.cons 0 _ rfl (.cons 0 _ rfl .nil)), rfl, rfl⟩

/-- C06: the SAF invariant of `q2IET`, `[-40]`, changes its sign by `swap()` and not by Zorich induction. -/
example : ∃ w' E' F', Run PPL.ideal (SLengths.ops q2Arith) [.zorichInduction 0, .swap 0, .zorichInduction 0] ⟨[q2IET], q2State⟩ w' ∧
    w'.pieces[0]? = some E' ∧ E'.safInvariant (SLengths.ops q2Arith) w'.lengths = .ok ([40], F') := by
  obtain ⟨w', E', hr, hp, -⟩ := q2World_run
  have hreach : Reachable hQ2 PPL.ideal ⟨[q2IET], q2State⟩ := sample_reachable _ _ q2_ok
  have hE' : w'.pieces[0]? = some E' := by rw [hp]; rfl
  obtain ⟨F', e', -, -⟩ := C06_saf_correct hQ2 PPL.ideal_lawful (hreach.run hr) (List.mem_of_getElem? hE')
  obtain ⟨F, e, -, -⟩ := C06_saf_correct hQ2 PPL.ideal_lawful hreach (E := q2IET) (by simp)
  have hv : (q2IET.safInvariant (SLengths.ops q2Arith) q2State).toOption.map (·.1) = some [-40] := by decide +kernel
  have hlen : w'.pieces.length = 1 := by rw [hp]; rfl
  have h := C06_saf_history hQ2 PPL.ideal_lawful hreach hr hlen (i := 0) (E := q2IET) rfl hE' e e'
  refine ⟨w', E', F', hr, hE', ?_⟩
  rw [e', h]
  rw [e] at hv
  have hv' := Option.some.inj hv
  simp only at hv'
  rw [hv']
  rfl

/-! ### Results of `induce()` -/

/-- C12, C52: SEPARATING_CONNECTION. -/
example : ∃ step E' s', sepIET.induce PPL.ideal (SLengths.ops intArith) 0 1 sepState = .ok (step, E', s') ∧
    ∃ b t R, step.connection = some (b, t) ∧ step.additional = some R ∧ (E'.top ++ R.top).Perm [0, 1, 2, 3] := by
  have hι : StrictMono (AddMonoidHom.id ℤ) := fun _ _ h => h
  obtain ⟨step, E', s', h1, h2⟩ : ∃ step E' s', sepIET.induce PPL.ideal (SLengths.ops intArith) 0 1 sepState = .ok (step, E', s') ∧
    step.result = .separatingConnection := ⟨_, _, _, rfl, rfl⟩
  obtain ⟨b, t, R, g1, g2, -, -, -, -, g3, -⟩ := C12_separating hInt PPL.ideal_lawful sep_reachable (by simp) h1 h2 hι
  exact ⟨step, E', s', h1, b, t, R, g1, g2, g3⟩

/-- C13, C18, C19, C52: NON_SEPARATING_CONNECTION.  There are periodic points since the lengths are integers. -/
example : ∃ step E' s', intIET.induce PPL.ideal (SLengths.ops intArith) 30 (-1) intState = .ok (step, E', s') ∧
    (∃ b t, step.connection = some (b, t) ∧ b ≠ t ∧ (t :: E'.top).Perm intIET.top) ∧
    ((∃ x, Periodic ((hInt.abs intIET intState).map (AddMonoidHom.id ℤ)).Maps x) ↔ ∃ x, Periodic ((hInt.abs E' s').map (AddMonoidHom.id ℤ)).Maps x) ∧
    ∃ m M A, Iter Round m (hInt.abs intIET intState) M ∧ LastRound M A ∧ MergeTop A (hInt.abs E' s') := by
  have hι : StrictMono (AddMonoidHom.id ℤ) := fun _ _ h => h
  obtain ⟨step, E', s', h1, h2⟩ : ∃ step E' s', intIET.induce PPL.ideal (SLengths.ops intArith) 30 (-1) intState = .ok (step, E', s') ∧
    step.result = .nonSeparatingConnection := ⟨_, _, _, rfl, rfl⟩
  have hreach : Reachable hInt PPL.ideal ⟨[intIET], intState⟩ := sample_reachable _ _ int_ok
  obtain ⟨b, t, g1, g2, g3, -, g4, -⟩ := C13_nonSeparating hInt PPL.ideal_lawful hreach (by simp) h1 h2 hι
  obtain ⟨m, M, A, k1, k2, k3, -⟩ := C52_connection hInt PPL.ideal_lawful hreach (by simp) h1 (.inr h2)
  refine ⟨step, E', s', h1, ⟨b, t, g1, g3, g4⟩, ?_, m, M, A, k1, ?_, k3 h2⟩
  · rw [C19_induce_periodic hInt PPL.ideal_lawful hreach (by simp) h1 hι, g2]
    simp
  · rcases k2 with k2 | k2
    · exact absurd rfl k2.1
    · exact k2.2

/-- C14, C17, C52: LIMIT_REACHED after a round of induction; further rounds continue from there. -/
example : ∃ step E' s', intIET.induce PPL.ideal (SLengths.ops intArith) 0 1 intState = .ok (step, E', s') ∧ (hInt.abs E' s').Irreducible ∧
    Iter Round 1 (hInt.abs intIET intState) (hInt.abs E' s') ∧
    (∀ m : ℕ, E'.induce PPL.ideal (SLengths.ops intArith) 0 m s' = intIET.induce PPL.ideal (SLengths.ops intArith) 0 (1 + m : ℕ) intState) ∧
    ∀ fuel : ℕ, E'.induce PPL.ideal (SLengths.ops intArith) fuel (-1) s' = intIET.induce PPL.ideal (SLengths.ops intArith) (1 + fuel) (-1) intState := by
  have hι : StrictMono (AddMonoidHom.id ℤ) := fun _ _ h => h
  obtain ⟨step, E', s', h1, h2⟩ : ∃ step E' s', intIET.induce PPL.ideal (SLengths.ops intArith) 0 1 intState = .ok (step, E', s') ∧
    step.result = .limitReached := ⟨_, _, _, rfl, rfl⟩
  have hreach : Reachable hInt PPL.ideal ⟨[intIET], intState⟩ := sample_reachable _ _ int_ok
  obtain ⟨-, -, -, g1, -⟩ := C14_limitReached hInt PPL.ideal_lawful hreach (by simp) h1 h2 hι
  obtain ⟨-, g2, -⟩ := C52_all_rounds hInt PPL.ideal_lawful hreach (by simp) h1 (.inl h2)
  exact ⟨step, E', s', h1, g1, g2, fun m => C17_split hInt PPL.ideal_lawful hreach (n := 1) m (by simp) h1 h2,
    fun fuel => C17_split_unlimited hInt PPL.ideal_lawful hreach (n := 1) (by simp) h1 h2 fuel⟩

/-- C16: `induce(0)` and `induce(-7)` split the reducible example and change no length. -/
example : ∃ step E₁ E₂, redIET.induce PPL.ideal (SLengths.ops q2Arith) 0 0 redState = .ok (step, E₁, redState) ∧
    redIET.induce PPL.ideal (SLengths.ops q2Arith) 0 (-7) redState = .ok (step, E₂, redState) ∧ E₁.top = E₂.top := by
  obtain ⟨step, E₁, E₂, h1, h2, h3, -⟩ := C16_negative_limit hQ2 PPL.ideal_lawful (sample_reachable _ _ red_ok) (E := redIET) (fuel := 0) (limit := -7) (List.mem_singleton.mpr rfl) (by decide)
  exact ⟨step, E₁, E₂, h1, h2, h3⟩

/-- C19: Zorich induction keeps periodic points. -/
example : ∃ r E' s', intIET.zorichInduction (SLengths.ops intArith) intState = .ok (r, E', s') ∧ s'.lengths ≠ intState.lengths ∧
    ((∃ x, Periodic ((hInt.abs intIET intState).map (AddMonoidHom.id ℤ)).Maps x) ↔ ∃ x, Periodic ((hInt.abs E' s').map (AddMonoidHom.id ℤ)).Maps x) := by
  obtain ⟨r, E', s', h1, h2⟩ : ∃ r E' s', intIET.zorichInduction (SLengths.ops intArith) intState = .ok (r, E', s') ∧ s'.lengths ≠ intState.lengths :=
    ⟨_, _, _, rfl, by decide⟩
  exact ⟨r, E', s', h1, h2, C19_zorich_periodic hInt int_ok h1 (ι := AddMonoidHom.id ℤ) (fun _ _ h => h)⟩

/-- Three intervals of lengths 1, √2, 2 + √2 whose SAF invariant vanishes. -/
def vanIET : IET Q2 := .fresh [0, 1, 2] [2, 1, 0]

/-- Their lengths. -/
def vanState : SLengths Q2 := ⟨[], [⟨1, 0⟩, ⟨0, 1⟩, ⟨2, 1⟩]⟩

/-- C22: an IET with vanishing SAF invariant. -/
example : ∃ relations S, vanIET.boshernitzanEquations (SLengths.ops q2Arith) vanState = .ok relations ∧
    Subspace.ofEquations relations (List.replicate relations.length 0) = .ok S ∧ S.hasNonZeroNonNegativeVector PPL.ideal = .ok true := by
  have hok : hQ2.Ok vanIET vanState := sample_ok _ _ _ _ (by decide +kernel)
  have hv : (vanIET.safInvariant (SLengths.ops q2Arith) vanState).toOption.map (·.1) = some [0] := by decide +kernel
  obtain ⟨F, e, -⟩ := C06_saf_correct hQ2 PPL.ideal_lawful (sample_reachable _ _ hok) (E := vanIET) (List.mem_singleton.mpr rfl)
  refine C22_saf_shortcut hQ2 q2Coef_faithful PPL.ideal_lawful (sample_reachable _ _ hok) (E := vanIET) (List.mem_singleton.mpr rfl) e ?_
  rw [e] at hv
  have hv' := Option.some.inj hv
  simp only at hv'
  rw [hv']
  simp

/-! ### Machine integers -/

/-- C28: 8 bits suffice for these lengths, and 64 bits. -/
theorem fits : FitsInput 127 [100, 10, 3, 14] [0, 1, 2, 3] [3, 2, 1, 0] where
  nonneg := by decide
  total := by decide
  known := by decide
  valid := ⟨by decide, by decide, by decide, by decide⟩

example (fuel : ℕ) (op : Op) : ∃ w, Run PPL.ideal (MLengths.ops 127) [.zorichInduction 0, .induce 0 5] ⟨[IET.fresh [0, 1, 2, 3] [3, 2, 1, 0]], ⟨[], [100, 10, 3, 14]⟩⟩ w ∧
    ((∃ w', op.exec PPL.ideal (MLengths.ops 127) fuel w = .ok w') ∨ (op.exec PPL.ideal (MLengths.ops 127) fuel w = .error .fuel ∧ ∃ i, op = .induce i (-1))) ∧
    (∀ E ∈ w.pieces, ∀ x ∈ w.lengths.lengths, 0 ≤ x ∧ x ≤ 127) ∧
    ∀ E ∈ w.pieces, E.top.length ≤ 8000 → ∃ step E' s', E.induce PPL.ideal (MLengths.ops 127) (2 ^ 31 - 1) (-1) w.lengths = .ok (step, E', s') := by
  have hr : ∃ w, Run PPL.ideal (MLengths.ops 127) [.zorichInduction 0, .induce 0 5] ⟨[IET.fresh [0, 1, 2, 3] [3, 2, 1, 0]], ⟨[], [100, 10, 3, 14]⟩⟩ w :=
    ⟨_, .cons 0 _ rfl (.cons 0 _ rfl .nil)⟩
  obtain ⟨w, hr⟩ := hr
  exact ⟨w, hr, C28_no_overflow fits PPL.ideal_lawful hr fuel op, fun E hE => (C28_bounded fits PPL.ideal_lawful hr hE).1,
    fun E hE hn => C28_counter (by decide) fits PPL.ideal_lawful hr hE hn⟩

end Verif.Examples
