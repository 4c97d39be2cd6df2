import Verif.Props.Decomposition
import Verif.Props.Boshernitzan
import Verif.Props.Induce

/-!
# C51: Boshernitzan's criterion gets applied
-/

namespace Verif

set_option linter.unusedSectionVars false

variable {σ T ε : Type} [CommRing T] [LinearOrder T] [IsStrictOrderedRing T] {O : LengthsOps σ T} {d : ℕ} {c : T →+ (Fin d → ℚ)}
  {P : Type} [CommRing P] [LinearOrder P] [IsStrictOrderedRing P]

theorem posRelation_of_saf (hc : ∀ x, c x = 0 → x = 0) {A : AIET T} (hA : A.Valid) (h0 : ∀ x ∈ safList c A, x = 0) : PosRelation c A := by
  have hd : d ≠ 0 := by
    rintro rfl
    have := hA.total_pos
    have h1 := hc A.total (Subsingleton.elim _ _)
    linarith
  refine relation_of_saf_eq_zero hc hA ?_
  intro i j hij hj
  have h1 := h0
  unfold safList at h1
  rw [if_neg (by omega)] at h1
  apply h1
  rw [List.mem_map]
  refine ⟨(i, j), ?_, rfl⟩
  simp only [IET.pairs, List.mem_flatMap, List.mem_range, List.mem_map, List.mem_range'_1, Prod.mk.injEq]
  exact ⟨i, by omega, j, by omega, rfl, rfl⟩

/-- **C51** LIMIT_REACHED is only reported when Boshernitzan's criterion does not apply to the resulting IET: its translations
satisfy a non-trivial linear relation with non-negative integer coefficients. -/
theorem C51_limitReached (H : LawfulLengths O c ε) (hc : ∀ x, c x = 0 → x = 0) {L : PPL} (hL : L.Lawful) {w : World σ T}
    (h : Reachable H L w) {E E' : IET T} {s' : σ} {step : InductionStep T} {fuel : ℕ} {limit : ℤ} (hE : E ∈ w.pieces)
    (hr : E.induce L O fuel limit w.lengths = .ok (step, E', s')) (hres : step.result = .limitReached) :
    ∃ n : Label → ℕ, (∃ a ∈ E'.top, n a ≠ 0) ∧ (E'.top.map (fun a => (n a : T) * (H.abs E' s').transl a)).sum = 0 := by
  obtain ⟨hs, hg⟩ := h.induce hL hE hr
  cases hs with
  | cylinder => cases hres
  | auto => cases hres
  | @finish E₁ _ _ _ h1 hm hf hlim hinf =>
    cases hf with
    | separating => cases hres
    | boshernitzan => cases hres
    | nonSeparating => cases hres
    | limit e1 e2 hirr hne hcomp =>
      have habs : H.abs E₁ s' = H.abs E' s' := by simp [LawfulLengths.abs, e1, e2]
      rw [habs] at hcomp
      have hp : PosRelation c (H.abs E' s') := hcomp.elim (posRelation_of_saf hc hg.ok.valid) id
      exact (posRelation_iff hc hg.ok.valid.nodup).mp hp

/-- No step of induction on integers, LIMIT_REACHED. -/
example (L : PPL) : ((Examples.intIET.induce L (SLengths.ops intArith) 0 0 Examples.intState).toOption.map (fun r => r.1.result)) =
    some .limitReached := rfl

theorem separating_result {D D' : Decomp σ T} {i : ℕ} {b t : Label} {F : IET T} {step : DStep} (h : D.separating i b t F = .ok (step, D')) :
    step.result = .separatingConnection := by
  unfold Decomp.separating at h
  simp only [bind, Except.bind, pure, Except.pure] at h
  repeat' split at h
  all_goals first
    | (cases h; done)
    | (cases h; rfl)

theorem nonSeparating_result {D D' : Decomp σ T} {i : ℕ} {b t : Label} {step : DStep} (h : D.nonSeparating i b t = .ok (step, D')) :
    step.result = .nonSeparatingConnection := by
  unfold Decomp.nonSeparating at h
  simp only [bind, Except.bind, pure, Except.pure] at h
  repeat' split at h
  all_goals first
    | (cases h; done)
    | (cases h; rfl)

theorem conclude_limitReached {D D' : Decomp σ T} {i : ℕ} {st : InductionStep T} {step : DStep} (h : D.conclude i st = .ok (step, D'))
    (hr : step.result = .limitReached) : st.result = .limitReached ∧ D' = D := by
  unfold Decomp.conclude at h
  simp only [bind, Except.bind, pure, Except.pure] at h
  split at h
  · cases h
  · split at h
    · rename_i e
      cases h
      exact ⟨e, rfl⟩
    · cases h; cases hr
    · rw [separating_result h] at hr; cases hr
    · rw [nonSeparating_result h] at hr; cases hr
    · cases h; cases hr
    · cases h; cases hr
    · cases h

/-- **C51** The same for `decompositionStep`. -/
theorem C51_decomposition_limitReached (H : LawfulLengths O c ε) (hc : ∀ x, c x = 0 → x = 0) {L : PPL} (hL : L.Lawful) {E : IET T} {s : σ} (hE : H.Ok E s)
    {D D' : Decomp σ T} {steps : List DStep} (h : DReach L O E s D steps) {fuel : ℕ} {limit : ℤ} {i : ℕ} {step : DStep}
    (hr : D.decompositionStep L O fuel limit i = .ok (step, D')) (hres : step.result = .limitReached) :
    ∃ x', D'.comps[i]? = some x' ∧ ∃ n : Label → ℕ, (∃ a ∈ x'.iet.top, n a ≠ 0) ∧
      (x'.iet.top.map (fun a => (n a : T) * (H.abs x'.iet D'.lengths.inner).transl a)).sum = 0 := by
  obtain ⟨x, hi, -, hlim, -⟩ := h.effect hL H hE hr
  have hl : limit ≠ -1 := fun hl => hlim hl hres
  have hinv := h.inv hL H (ι := AddMonoidHom.id T) (fun _ _ h => h) hE
  have hx := List.mem_of_getElem? hi
  have hk : ¬ (x.cylinder = some true ∧ x.keane = some true) := fun h' => (hinv.flags x hx).keane h'.2
  set s : LWC σ := { D.lengths with others := D.others i } with hs
  have hg : (LWC.lawful H).Good x.iet s := LWC.good_congr (hinv.good x hx) rfl rfl rfl
  set E₀ : IET T := { x.iet with safCache := some (safList c ((LWC.lawful H).unswapped x.iet s)) } with hE₀
  set cost : Option ℤ := if ∀ v ∈ safList c (H.abs x.iet s.inner), v = 0 then none else some 64 with hcost
  have hcost' : ∀ v, cost = some v → 0 < v := by
    intro v hv
    rw [hcost] at hv
    split at hv
    · cases hv
    · cases hv; norm_num
  obtain ⟨st, E', s', h1, h2, h3, -⟩ := chunks_spec H hL cost hcost' (limit.toNat + 1) limit E₀ s hl (Nat.lt_succ_self _) hg.setCache
  have hset : (D.comps.set i ({ x with iet := E' } : Comp T))[i]? = some { x with iet := E' } := by
    rw [List.getElem?_set_self (List.getElem?_eq_some_iff.mp hi).1]
  have hrun : D.decompositionStep L O fuel limit i =
      Decomp.conclude { comps := D.comps.set i { x with iet := E' }, lengths := s' } i st := by
    unfold Decomp.decompositionStep
    rw [if_neg hl]
    unfold Decomp.decompositionStepBounded
    simp only [Decomp.comp_ok hi, assertM, bind, Except.bind]
    rw [if_pos (decide_eq_true hk)]
    simp only
    rw [boshernitzanCost_spec H hg]
    simp only
    rw [h1]
    rfl
  rw [hrun] at hr
  obtain ⟨e, rfl⟩ := conclude_limitReached hr hres
  refine ⟨_, hset, ?_⟩
  simp only
  cases h2 with
  | cylinder => cases e
  | auto => cases e
  | finish _ hf =>
    cases hf with
    | separating => cases e
    | boshernitzan => cases e
    | nonSeparating => cases e
    | limit e1 e2 _ _ hcomp =>
      have hp : PosRelation c (H.abs E' s'.inner) := by
        have habs : ∀ F : IET T, F.top = E'.top → F.bottom = E'.bottom → (LWC.lawful H).abs F s' = H.abs E' s'.inner := by
          intro F f1 f2; simp only [LawfulLengths.abs, f1, f2]; rfl
        rw [habs _ e1.symm e2.symm] at hcomp
        exact hcomp.elim (posRelation_of_saf hc h3.ok.valid) id
      exact (posRelation_iff hc h3.ok.valid.nodup).mp hp

/-- **C51** A single call of `decompositionStep(0)` detects that a component has no periodic points, if it has more than one interval, is irreducible, its
first top and bottom intervals have different lengths, and there is no non-trivial relation between its translations with non-negative
integer coefficients. -/
theorem C51_detected (H : LawfulLengths O c ε) (hc : ∀ x, c x = 0 → x = 0) {L : PPL} (hL : L.Lawful) {E : IET T} {s : σ} (hE : H.Ok E s) {D : Decomp σ T}
    {steps : List DStep} (h : DReach L O E s D steps) {i : ℕ} {x : Comp T} (hi : D.comps[i]? = some x)
    (hsize : 1 < x.iet.top.length) (hirr : (H.abs x.iet D.lengths.inner).Irreducible)
    (hheads : ∀ a b, x.iet.top.head? = some a → x.iet.bottom.head? = some b → O.get a D.lengths.inner ≠ O.get b D.lengths.inner)
    (hrel : ¬ ∃ n : Label → ℕ, (∃ a ∈ x.iet.top, n a ≠ 0) ∧
      (x.iet.top.map (fun a => (n a : T) * (H.abs x.iet D.lengths.inner).transl a)).sum = 0) (fuel : ℕ) :
    ∃ D' x', D.decompositionStep L O fuel 0 i = .ok ({ result := .withoutPeriodicTrajectoryBoshernitzan }, D') ∧
      D'.comps = D.comps.set i x' ∧ x'.withoutPeriodicTrajectory = some true ∧ x'.cylinder = some false ∧
      x'.iet.top = x.iet.top ∧ x'.iet.bottom = x.iet.bottom ∧ D'.lengths.inner = D.lengths.inner := by
  have hinv := h.inv hL H (ι := AddMonoidHom.id T) (fun _ _ h => h) hE
  have hx := List.mem_of_getElem? hi
  have hk : ¬ (x.cylinder = some true ∧ x.keane = some true) := fun h' => (hinv.flags x hx).keane h'.2
  set s : LWC σ := { D.lengths with others := D.others i } with hs
  have hg : (LWC.lawful H).Good x.iet s := LWC.good_congr (hinv.good x hx) rfl rfl rfl
  have hv : (H.abs x.iet D.lengths.inner).Valid := hg.ok.valid
  have hrel' : ¬ PosRelation c (H.abs x.iet D.lengths.inner) := fun h => hrel ((posRelation_iff hc hv.nodup).mp h)
  have hsaf : ¬ ∀ v ∈ safList c (H.abs x.iet D.lengths.inner), v = 0 := fun h => hrel' (posRelation_of_saf hc hv h)
  have hheads' : ¬ HeadsEq (H.abs x.iet D.lengths.inner) := by
    intro hh
    obtain ⟨a, b, ha, hb⟩ := hv.heads
    have ha' : x.iet.top.head? = some a := ha
    have hb' : x.iet.bottom.head? = some b := hb
    have m1 : a ∈ x.iet.top := List.mem_of_head? ha'
    have m2 : b ∈ x.iet.top := hv.perm.mem_iff.mp (List.mem_of_head? hb')
    refine hheads a b ha' hb' ?_
    have hgo := (hinv.good x hx).ok
    rw [H.get_spec _ _ hgo.inv.1 (hgo.dom a m1).1, H.get_spec _ _ hgo.inv.1 (hgo.dom b m2).1]
    congr 1
    exact hh a b ha hb
  set E₀ : IET T := { x.iet with safCache := some (safList c ((LWC.lawful H).unswapped x.iet s)) } with hE₀
  have hgE : (LWC.lawful H).Good E₀ s := hg.setCache
  have hind : ∃ E₁, E₀.induce L (LWC.ops O) 0 0 s = .ok (⟨.withoutPeriodicTrajectoryBoshernitzan, none, none⟩, E₁, s) ∧
      E₁.top = x.iet.top ∧ E₁.bottom = x.iet.bottom := by
    rcases induce_spec (LWC.lawful H) hL 0 0 E₀ s hgE with ⟨_, h⟩ | ⟨step, E', s', h1, h2, h3, h4, h5, h6⟩
    · cases h
    · cases h2 with
      | cylinder hl => rw [show E₀.top.length = x.iet.top.length from rfl] at hl; omega
      | auto _ hl => omega
      | @finish E₁ _ _ _ g1 g2 g3 g4 g5 =>
        obtain ⟨rfl, e1, e2⟩ := g4 (by omega)
        have habs : (LWC.lawful H).abs E₁ s = H.abs x.iet D.lengths.inner := by
          simp only [LawfulLengths.abs, e1, e2]; rfl
        cases g3 with
        | separating hcut =>
          exfalso
          rw [habs] at hcut
          have hp := hcut.perm
          rw [hcut.left_eq] at hp
          exact hirr _ hcut.pos hcut.lt hp.symm
        | nonSeparating _ f1 f2 _ f4 =>
          exfalso
          apply hheads'
          rw [← habs]
          intro a b ha hb
          simp only [LawfulLengths.abs, f1, f2, List.head?_cons, Option.some.injEq] at ha hb
          subst ha hb
          exact f4
        | boshernitzan f1 f2 => exact ⟨E', h1, f1.trans e1, f2.trans e2⟩
        | limit _ _ _ _ f =>
          exfalso
          rw [habs] at f
          exact f.elim hsaf hrel'
  obtain ⟨E₁, h1, h2, h3⟩ := hind
  have hcost : Decomp.boshernitzanCost O x.iet s = .ok (some 64, E₀) := by
    rw [boshernitzanCost_spec H hg, if_neg hsaf]
  have hset : (D.comps.set i ({ x with iet := E₁ } : Comp T))[i]? = some { x with iet := E₁ } := by
    rw [List.getElem?_set_self (List.getElem?_eq_some_iff.mp hi).1]
  set x' : Comp T := { x with iet := E₁, withoutPeriodicTrajectory := some true, cylinder := some false } with hx'
  have hrun : D.decompositionStep L O fuel 0 i = .ok ({ result := .withoutPeriodicTrajectoryBoshernitzan },
      ⟨(D.comps.set i ({ x with iet := E₁ } : Comp T)).set i x', s⟩) := by
    unfold Decomp.decompositionStep
    rw [if_neg (by decide)]
    unfold Decomp.decompositionStepBounded
    simp only [Decomp.comp_ok hi, assertM, bind, Except.bind]
    rw [if_pos (decide_eq_true hk)]
    simp only
    rw [hcost]
    simp only [Decomp.chunks, bind, Except.bind, pure, Except.pure]
    rw [show Decomp.chunkSize (some 64) 0 = 0 from rfl, h1]
    simp only [reduceCtorEq, false_and, if_false]
    unfold Decomp.conclude Decomp.comp Decomp.setComp
    simp only [hset, bind, Except.bind, pure, Except.pure]
    rfl
  exact ⟨_, x', hrun, List.set_set .., rfl, rfl, h2, h3, rfl⟩

/-- The decomposition of a rotation by `√2`: the single component is recognized at once, and has no periodic points. -/
theorem Examples.rot_decomposition : ∃ D steps x, DReach PPL.ideal (SLengths.ops Examples.q2Arith) Examples.rotIET Examples.rotState D steps ∧ x ∈ D.comps ∧
    x.withoutPeriodicTrajectory = some true ∧
    ¬ ∃ y, Periodic ((Examples.hQ2.abs x.iet D.lengths.inner).map (AddMonoidHom.id Examples.Q2)).Maps y := by
  obtain ⟨D, h1, h2, h3, -⟩ := Decomp.make_spec Examples.hQ2 (ι := AddMonoidHom.id Examples.Q2) (fun _ _ h => h) Examples.rot_ok
  have hr := DReach.init (L := PPL.ideal) h1
  obtain ⟨D', x', g1, g2, g3, g4, -⟩ := C51_detected Examples.hQ2 Examples.q2Coef_faithful PPL.ideal_lawful Examples.rot_ok hr (i := 0)
    (x := { iet := Examples.rotIET }) (by rw [h2]; rfl) (by decide)
    (by
      intro k hk hk'
      have : k = 1 := by
        have : k < 2 := hk'
        omega
      subst this
      rw [h3]
      decide)
    (by rw [h3]; rintro a b ⟨⟩ ⟨⟩; decide)
    (by
      rw [h3]
      rintro ⟨n, ⟨a, ha, hn⟩, h⟩
      have t0 : (Examples.hQ2.abs Examples.rotIET Examples.rotState).transl 0 = ⟨0, 1⟩ := by decide
      have t1 : (Examples.hQ2.abs Examples.rotIET Examples.rotState).transl 1 = ⟨-1, 0⟩ := by decide
      have e : (n 0 : Examples.Q2) * ⟨0, 1⟩ + ((n 1 : Examples.Q2) * ⟨-1, 0⟩) = 0 := by
        have : ([0, 1].map (fun a => (n a : Examples.Q2) * (Examples.hQ2.abs Examples.rotIET Examples.rotState).transl a)).sum = 0 := h
        simpa [t0, t1] using this
      have h0 := congrArg Zsqrtd.re e
      have h1 := congrArg Zsqrtd.im e
      simp at h0 h1
      have ha' : a ∈ [0, 1] := ha
      simp at ha'
      rcases ha' with rfl | rfl <;> omega) 0
  have hr' := hr.step _ _ _ g1
  have hx : x' ∈ D'.comps := by rw [g2, h2]; simp
  refine ⟨D', _, x', hr', hx, g3, C37_withoutPeriodicTrajectory_partial Examples.hQ2 PPL.ideal_lawful Examples.rot_ok hr' ?_ hx g3 (fun _ _ h => h)⟩
  intro st hst
  simp at hst
  subst hst
  simp

end Verif
