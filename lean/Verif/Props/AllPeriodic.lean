import Verif.Props.FewMinimal
import Verif.Proofs.Partition

/-!
# C109: completely periodic IETs decompose into cylinders
-/

namespace Verif

set_option linter.unusedSectionVars false

variable {σ T ε P : Type} [CommRing T] [LinearOrder T] [IsStrictOrderedRing T] [CommRing P] [LinearOrder P] [IsStrictOrderedRing P]
  {O : LengthsOps σ T} {d : ℕ} {c : T →+ (Fin d → ℚ)}

/-- When all points are periodic then every piece has a periodic point. -/
theorem Covers.piece_periodic {A : AIET P} {pieces : List (P × AIET P)} (h : Covers A pieces)
    (hper : ∀ x, 0 ≤ x → x < A.total → Periodic A.Maps x) {p : P × AIET P} (hp : p ∈ pieces) : ∃ y, Periodic p.2.Maps y := by
  have h0 := (h.valid p hp).total_pos
  have h1 := h.inside p hp
  have hin : Inside p p.1 := ⟨le_rfl, by linarith⟩
  exact ⟨_, h.transGen_piece (o := p.1) (A := p.2) hp hin hin (hper p.1 h1.1 (by linarith))⟩

/-- When all pieces have a single interval then all points are periodic. -/
theorem Covers.all_periodic {A : AIET P} (hA : A.Valid) {pieces : List (P × AIET P)} (h : Covers A pieces)
    (hone : ∀ p ∈ pieces, p.2.top.length = 1) {x : P} (h0 : 0 ≤ x) (h1 : x < A.total) : Periodic A.Maps x := by
  obtain ⟨p, hp, y, hy, hin⟩ := h.meets x h0 h1
  have hv := h.valid p hp
  obtain ⟨a, ha⟩ := List.length_eq_one_iff.mp (hone p hp)
  have hb : p.2.bottom = [a] := by
    have := hv.perm
    rw [ha] at this
    exact List.perm_singleton.mp this
  have y0 : 0 ≤ y - p.1 := by linarith [hin.1]
  have y1 : y - p.1 < p.2.total := by linarith [hin.2]
  have hm : p.2.Maps (y - p.1) (y - p.1) := by
    refine ⟨a, by rw [ha]; simp, ?_, ?_, ?_⟩
    · rw [ha]; simpa [off] using y0
    · have e : p.2.total = p.2.len a := by simp [AIET.total, ha, sumLen]
      rw [e] at y1
      rw [ha]; simpa [off] using y1
    · rw [ha, hb]; simp [off]
  have hr := ((h.maps p hp _ _ y0 y1).mp hm).transGen
  rw [sub_add_cancel] at hr
  apply hA.periodic_inv
  have hinv : Relation.TransGen A.inv.Maps y y := by
    rw [show A.inv.Maps = Function.swap A.Maps from by funext u v; exact propext hA.maps_inv, Relation.transGen_swap]
    exact hr
  refine transGen_of_reflTransGen_cycle hA.inv.maps_fun hinv ?_
  rw [show A.inv.Maps = Function.swap A.Maps from by funext u v; exact propext hA.maps_inv, Relation.reflTransGen_swap]
  exact hy

/-- **C109** When all components of a decomposition are cylinders then all points of the IET are periodic. -/
theorem C109_cylinders (H : LawfulLengths O c ε) {L : PPL} (hL : L.Lawful) {E : IET T} {s : σ} (hE : H.Ok E s) {D : Decomp σ T} {steps : List DStep}
    (h : DReach L O E s D steps) (hcyl : ∀ x ∈ D.comps, x.cylinder = some true) {ι : T →+ P} (hι : StrictMono ι) {x : P} (h0 : 0 ≤ x)
    (h1 : x < ((H.abs E s).map ι).total) : Periodic ((H.abs E s).map ι).Maps x := by
  obtain ⟨os, ho, hcov⟩ := C36_covers H hL hE h hι
  refine hcov.all_periodic (hE.valid.map hι) (fun p hp => ?_) h0 h1
  obtain ⟨z, hz, e⟩ := List.mem_map.mp (List.of_mem_zip (show (p.1, p.2) ∈ _ from hp)).2
  rw [← e]
  have hinv := h.inv hL H (ι := AddMonoidHom.id T) (fun _ _ h => h) hE
  exact (hinv.flags z hz).cylinder (hcyl z hz)

/-- **C109** When all points of an IET are periodic then `decompose()` returns true from every state of its decomposition.  All components are
known to be cylinders then unless WITHOUT_PERIODIC_TRAJECTORY_AUTO_SIMILAR has been reported on the way (which is not sound, see C23).  As usual, `int`s must not
overflow, i.e., no component admits more than a billion rounds of induction. -/
theorem C109_decompose [Archimedean T] (H : LawfulLengths O c ε) (hc : ∀ x, c x = 0 → x = 0) {L : PPL} (hL : L.Lawful) {E : IET T} {s : σ}
    (hE : H.Ok E s) (hper : ∀ x, 0 ≤ x → x < (H.abs E s).total → Periodic (H.abs E s).Maps x)
    (hover : ∀ D steps, DReach L O E s D steps → ∀ x ∈ D.comps, ¬ ∃ n B, 2 ^ 30 - 1 ≤ n ∧ Iter Round n (H.abs x.iet D.lengths.inner) B)
    {D : Decomp σ T} {steps : List DStep} (h : DReach L O E s D steps) :
    ∃ fuel D' steps', (∀ n, fuel ≤ n → D.decompose L O Decomp.defaultTarget (-1) n = .ok (true, D')) ∧ DReach L O E s D' (steps ++ steps') ∧
      ((∀ st ∈ steps ++ steps', st.result ≠ .withoutPeriodicTrajectoryAutoSimilar) →
        ∀ x ∈ D'.comps, x.cylinder = some true ∧ x.withoutPeriodicTrajectory = some false ∧ x.iet.top.length = 1) := by
  have hcomp : ∀ {D : Decomp σ T} {steps : List DStep}, DReach L O E s D steps → ∀ x ∈ D.comps, (H.abs x.iet D.lengths.inner).Valid ∧
      ∃ y, Periodic (H.abs x.iet D.lengths.inner).Maps y := by
    intro D steps h x hx
    have hinv := h.inv hL H (ι := AddMonoidHom.id T) (fun _ _ h => h) hE
    refine ⟨(hinv.good x hx).ok.valid, ?_⟩
    obtain ⟨os, ho, hcov⟩ := C36_covers H hL hE h (ι := AddMonoidHom.id T) (fun _ _ h => h)
    obtain ⟨i, hi, e⟩ := List.mem_iff_getElem.mp hx
    have hmem : (os[i]'(by omega), (H.abs x.iet D.lengths.inner).map (AddMonoidHom.id T)) ∈
        os.zip (D.comps.map (fun x => (H.abs x.iet D.lengths.inner).map (AddMonoidHom.id T))) := by
      rw [List.mem_iff_getElem]
      exact ⟨i, by simp; omega, by simp [e]⟩
    exact hcov.piece_periodic (fun x h0 h1 => hper x h0 h1) hmem
  obtain ⟨F, D', h1⟩ := decomposeAll_settles H hL hE (limit := -1) (by
    intro D steps i x h hi
    have hinv := h.inv hL H (ι := AddMonoidHom.id T) (fun _ _ h => h) hE
    have hx := List.mem_of_getElem? hi
    obtain ⟨c1, c2⟩ := hcomp h x hx
    obtain ⟨N, hN⟩ := exists_endsBy c1 (.inl c2)
    obtain ⟨r, h1, ⟨step, D', rfl⟩ | ⟨-, h2, h3⟩⟩ := step_settles hL hc hinv hi hN.settles
    · refine ⟨N + 2, step, D', ?_, h1⟩
      obtain ⟨_, -, -, hl, -⟩ := h.effect hL H hE (h1 (N + 2) (le_refl _))
      exact hl rfl
    · exact absurd h3 (hover D steps h x hx)) (target := Decomp.defaultTarget) (by
    rintro x (hx | hx) <;> simp [Decomp.defaultTarget, hx]) (List.range D.comps.length) h (fun i hi => List.mem_range.mp hi)
  obtain ⟨steps', h2, -, -⟩ := C38_target H hL hE h (h1 F le_rfl)
  refine ⟨F, D', steps', h1, h2, fun hauto x hx => ?_⟩
  rcases C38_default H hL hE h (h1 F le_rfl) x hx with ⟨q1, q2⟩ | ⟨-, q2⟩
  · have hinv := h2.inv hL H (ι := AddMonoidHom.id T) (fun _ _ h => h) hE
    exact ⟨q1, q2, (hinv.flags x hx).cylinder q1⟩
  · exact absurd (hcomp h2 x hx).2 (C37_withoutPeriodicTrajectory_partial H hL hE h2 hauto hx q2 (ι := AddMonoidHom.id T) (fun _ _ h => h))

/-- All points are periodic for the lengths `5`, `2`, `7` in reversed order, since the IET can be decomposed into cylinders. -/
theorem Examples.intThree_periodic (x : ℤ) (h0 : 0 ≤ x) (h1 : x < (Examples.hInt.abs (IET.fresh [0, 1, 2] [2, 1, 0]) ⟨[], [5, 2, 7]⟩).total) :
    Periodic (Examples.hInt.abs (IET.fresh [0, 1, 2] [2, 1, 0]) ⟨[], [5, 2, 7]⟩).Maps x := by
  obtain ⟨D, q1, -⟩ := Decomp.make_spec Examples.hInt (ι := AddMonoidHom.id ℤ) (fun _ _ h => h) Examples.intThree_ok
  obtain ⟨D', q2, q3⟩ := C39_decompose Examples.hInt PPL.ideal_lawful Examples.intThree_ok (u := 1) (by norm_num) (k := fun a => [5, 2, 7].getD a 0)
    (by decide) (by decide) (.init q1) (fuel := 35) (by decide)
  obtain ⟨steps', q4, -, -⟩ := C38_target Examples.hInt PPL.ideal_lawful Examples.intThree_ok (.init q1) q2
  exact C109_cylinders Examples.hInt PPL.ideal_lawful Examples.intThree_ok q4 (fun z hz => (q3 z hz).1) (ι := AddMonoidHom.id ℤ) (fun _ _ h => h) h0 h1

example : ∃ D D' fuel, Decomp.make (SLengths.ops intArith) (IET.fresh [0, 1, 2] [2, 1, 0]) ⟨[], [5, 2, 7]⟩ = .ok D ∧
    D.decompose PPL.ideal (SLengths.ops intArith) Decomp.defaultTarget (-1) fuel = .ok (true, D') := by
  obtain ⟨D, h1, -⟩ := Decomp.make_spec Examples.hInt (ι := AddMonoidHom.id ℤ) (fun _ _ h => h) Examples.intThree_ok
  obtain ⟨F, D', -, h2, -⟩ := C109_decompose Examples.hInt (fun x hx => by simpa [intCoef] using congrFun hx 0) PPL.ideal_lawful Examples.intThree_ok
    Examples.intThree_periodic Examples.intThree_rounds (.init h1)
  exact ⟨D, D', F, h1, h2 F le_rfl⟩

end Verif
