import Verif.Props.Euclid
import Verif.Props.Independent

/-!
# C104: exchanges of two intervals always decompose
-/

namespace Verif

set_option linter.unusedSectionVars false

variable {σ T ε : Type} [CommRing T] [LinearOrder T] [IsStrictOrderedRing T] {O : LengthsOps σ T} {d : ℕ} {c : T →+ (Fin d → ℚ)}

/-- **C104** If the ratio of the two lengths is rational, `y / x = m / n` in lowest terms, then `decompose()` finds a single cylinder,
and its width is the common unit `x / n = y / m`. -/
theorem C104_rational (H : LawfulLengths O c ε) {L : PPL} (hL : L.Lawful) {E : IET T} {s : σ} (hE : H.Ok E s) {a b : Label}
    (htop : E.top = [a, b]) (hbottom : E.bottom = [b, a]) {x y : T} (hx : O.get a s = .ok x) (hy : O.get b s = .ok y)
    {n m : ℕ} (hnm : Nat.Coprime n m) (hrel : (n : T) * y = m * x) (hbound : 2 * (1 + Nat.log 2 n + Nat.log 2 m) ≤ 2 ^ 31 - 3)
    {D : Decomp σ T} {steps : List DStep} (h : DReach L O E s D steps) {fuel : ℕ} (hfuel : 33 ≤ fuel) :
    ∃ (D' : Decomp σ T) (z : Comp T) (l : Label) (u : T), D.decompose L O Decomp.defaultTarget (-1) fuel = .ok (true, D') ∧ D'.comps = [z] ∧
      z.cylinder = some true ∧ z.withoutPeriodicTrajectory = some false ∧ z.iet.top = [l] ∧ O.get l D'.lengths.inner = .ok u ∧
      x = n * u ∧ y = m * u := by
  have hab : a ≠ b := by have := hE.valid.nodup; simpa [LawfulLengths.abs, htop] using this
  have hxl : H.len s a = x := by
    have := H.get_spec s a hE.inv (hE.dom a (by simp [htop]))
    rw [hx] at this
    exact (Except.ok.inj this).symm
  have hyl : H.len s b = y := by
    have := H.get_spec s b hE.inv (hE.dom b (by simp [htop]))
    rw [hy] at this
    exact (Except.ok.inj this).symm
  have hx0 : 0 < x := hxl ▸ hE.valid.pos a (by simp [LawfulLengths.abs, htop])
  have hy0 : 0 < y := hyl ▸ hE.valid.pos b (by simp [LawfulLengths.abs, htop])
  obtain ⟨α, β, hαβ⟩ := Nat.isCoprime_iff_coprime.mpr hnm
  have hαβ' : (α : T) * n + β * m = 1 := by exact_mod_cast congrArg (Int.cast (R := T)) hαβ
  set u : T := α * x + β * y with hu
  have e1 : x = n * u := by rw [hu]; linear_combination (-x) * hαβ' - β * hrel
  have e2 : y = m * u := by rw [hu]; linear_combination (-y) * hαβ' + α * hrel
  have hu0 : 0 < u := by
    rcases lt_trichotomy u 0 with hu0 | hu0 | hu0
    · have := mul_nonpos_of_nonneg_of_nonpos (Nat.cast_nonneg (α := T) n) hu0.le
      rw [← e1] at this
      exact absurd hx0 (not_lt.mpr this)
    · rw [hu0, mul_zero] at e1
      exact absurd e1 hx0.ne'
    · exact hu0
  obtain ⟨D', h1, h2⟩ := C39_decompose H hL hE hu0 (k := fun l => if l = a then n else m) (by
      intro l hl
      rw [htop] at hl
      rcases List.mem_pair.mp hl with rfl | rfl
      · simpa [← e1] using hx
      · simpa [hab.symm, ← e2] using hy) (by
      rw [htop]
      simp [hab.symm]
      omega) h (fuel := fuel) (by rw [htop]; simpa using hfuel)
  obtain ⟨steps', h3, -, -⟩ := C38_target H hL hE h h1
  obtain ⟨z, hz⟩ := List.length_eq_one_iff.mp (rotation_comps H hL hE htop hbottom h3)
  have hzm : z ∈ D'.comps := by simp [hz]
  obtain ⟨l, hl⟩ := List.length_eq_one_iff.mp (h2 z hzm).2.2
  have hinv := h3.inv hL H (ι := AddMonoidHom.id T) (fun _ _ h => h) hE
  have hok := (hinv.good z hzm).ok
  have hg0 : 0 < H.len D'.lengths.inner l := hok.valid.pos l (by simp [LawfulLengths.abs, hl])
  have hgrp := C88_cylinders H hL hE h3 (fun z hz => (h2 z hz).2.2)
  set g := H.len D'.lengths.inner l with hg
  have hcyl : D'.cylinders H = [(l, g)] := by simp [Decomp.cylinders, hz, hl, hg]
  have hgu : g = u := by
    have hcl : AddSubgroup.closure {v | ∃ p ∈ D'.cylinders H, v = p.2} = AddSubgroup.zmultiples g := by
      rw [AddSubgroup.zmultiples_eq_closure, hcyl]; congr 1; ext v; simp
    have hcr : AddSubgroup.closure {v | ∃ a ∈ E.top, v = H.len s a} = AddSubgroup.zmultiples u := by
      apply le_antisymm
      · rw [AddSubgroup.closure_le]
        rintro v ⟨l', hl', rfl⟩
        rw [htop] at hl'
        rcases List.mem_pair.mp hl' with rfl | rfl
        · rw [hxl, e1]; exact ⟨n, by simp⟩
        · rw [hyl, e2]; exact ⟨m, by simp⟩
      · rw [AddSubgroup.zmultiples_le, hu]
        have m1 : x ∈ AddSubgroup.closure {v | ∃ a ∈ E.top, v = H.len s a} := AddSubgroup.subset_closure ⟨a, by simp [htop], hxl.symm⟩
        have m2 : y ∈ AddSubgroup.closure {v | ∃ a ∈ E.top, v = H.len s a} := AddSubgroup.subset_closure ⟨b, by simp [htop], hyl.symm⟩
        have := add_mem (AddSubgroup.zsmul_mem _ m1 α) (AddSubgroup.zsmul_mem _ m2 β)
        simpa [zsmul_eq_mul] using this
    rw [hcl, hcr] at hgrp
    obtain ⟨i, hi⟩ : u ∈ AddSubgroup.zmultiples g := hgrp ▸ AddSubgroup.mem_zmultiples u
    obtain ⟨j, hj⟩ : g ∈ AddSubgroup.zmultiples u := hgrp ▸ AddSubgroup.mem_zmultiples g
    simp only [zsmul_eq_mul] at hi hj
    have hi1 : 1 ≤ i := by
      by_contra hc'
      have : (i : T) ≤ 0 := by exact_mod_cast (by omega : i ≤ 0)
      have := mul_nonpos_of_nonpos_of_nonneg this hg0.le
      rw [hi] at this
      exact absurd hu0 (not_lt.mpr this)
    have hj1 : 1 ≤ j := by
      by_contra hc'
      have : (j : T) ≤ 0 := by exact_mod_cast (by omega : j ≤ 0)
      have := mul_nonpos_of_nonpos_of_nonneg this hu0.le
      rw [hj] at this
      exact absurd hg0 (not_lt.mpr this)
    apply le_antisymm
    · rw [← hi]; exact le_mul_of_one_le_left hg0.le (by exact_mod_cast hi1)
    · rw [← hj]; exact le_mul_of_one_le_left hu0.le (by exact_mod_cast hj1)
  exact ⟨D', z, l, u, h1, hz, (h2 z hzm).1, (h2 z hzm).2.1, hl,
    hgu ▸ H.get_spec _ _ hok.inv.1 ((hok.dom l (by simp [hl])).1), e1, e2⟩

/-- **C104** If the ratio of the two lengths is irrational then `decompose()` returns true with any limit; there is a single component, it still
has two intervals, and it is known to be without periodic trajectories. -/
theorem C104_irrational (H : LawfulLengths O c ε) (hc : ∀ x, c x = 0 → x = 0) {L : PPL} (hL : L.Lawful) {E : IET T} {s : σ} (hE : H.Ok E s)
    {a b : Label} (htop : E.top = [a, b]) (hbottom : E.bottom = [b, a]) {x y : T} (hx : O.get a s = .ok x) (hy : O.get b s = .ok y)
    (hirr : ∀ n m : ℕ, (n : T) * y = m * x → n = 0) {D : Decomp σ T} {steps : List DStep} (h : DReach L O E s D steps) {limit : ℤ}
    (hlimit : -1 ≤ limit) :
    ∃ (fuel : ℕ) (D' : Decomp σ T) (z : Comp T), (∀ k, fuel ≤ k → D.decompose L O Decomp.defaultTarget limit k = .ok (true, D')) ∧
      D'.comps = [z] ∧ z.cylinder = some false ∧ z.withoutPeriodicTrajectory = some true ∧ z.iet.top.length = 2 := by
  have hab : a ≠ b := by have := hE.valid.nodup; simpa [LawfulLengths.abs, htop] using this
  have hxl : H.len s a = x := by
    have := H.get_spec s a hE.inv (hE.dom a (by simp [htop]))
    rw [hx] at this
    exact (Except.ok.inj this).symm
  have hyl : H.len s b = y := by
    have := H.get_spec s b hE.inv (hE.dom b (by simp [htop]))
    rw [hy] at this
    exact (Except.ok.inj this).symm
  have hx0 : 0 < x := hxl ▸ hE.valid.pos a (by simp [LawfulLengths.abs, htop])
  have hy0 : 0 < y := hyl ▸ hE.valid.pos b (by simp [LawfulLengths.abs, htop])
  have hind : (H.abs E s).Independent := by
    intro z hz
    simp only [LawfulLengths.abs, htop, sumLen, add_zero, hxl, hyl] at hz
    have key : z b = 0 := by
      rcases le_total 0 (z b) with hb | hb
      · rcases le_total (z a) 0 with ha | ha
        · have := hirr (z b).toNat (-z a).toNat (by
            have e1 : (((z b).toNat : ℤ) : T) = (z b : T) := by rw [Int.toNat_of_nonneg hb]
            have e2 : (((-z a).toNat : ℤ) : T) = ((-z a : ℤ) : T) := by rw [Int.toNat_of_nonneg (by omega)]
            rw [Int.cast_natCast] at e1 e2
            rw [e1, e2]; push_cast; linear_combination hz)
          omega
        · have h1 : (0 : T) ≤ (z a : T) * x := mul_nonneg (by exact_mod_cast ha) hx0.le
          have h2 : (0 : T) ≤ (z b : T) * y := mul_nonneg (by exact_mod_cast hb) hy0.le
          have h3 : (z b : T) * y = 0 := by linarith
          rcases mul_eq_zero.mp h3 with h3 | h3
          · exact_mod_cast h3
          · exact absurd h3 hy0.ne'
      · rcases le_total 0 (z a) with ha | ha
        · have := hirr (-z b).toNat (z a).toNat (by
            have e1 : (((-z b).toNat : ℤ) : T) = ((-z b : ℤ) : T) := by rw [Int.toNat_of_nonneg (by omega)]
            have e2 : (((z a).toNat : ℤ) : T) = (z a : T) := by rw [Int.toNat_of_nonneg ha]
            rw [Int.cast_natCast] at e1 e2
            rw [e1, e2]; push_cast; linear_combination -hz)
          omega
        · have h1 : (z a : T) * x ≤ 0 := mul_nonpos_of_nonpos_of_nonneg (by exact_mod_cast ha) hx0.le
          have h2 : (z b : T) * y ≤ 0 := mul_nonpos_of_nonpos_of_nonneg (by exact_mod_cast hb) hy0.le
          have h3 : (z b : T) * y = 0 := by linarith
          rcases mul_eq_zero.mp h3 with h3 | h3
          · exact_mod_cast h3
          · exact absurd h3 hy0.ne'
    rw [key] at hz
    have hza : z a = 0 := by
      rcases mul_eq_zero.mp (show (z a : T) * x = 0 by simpa using hz) with h3 | h3
      · exact_mod_cast h3
      · exact absurd h3 hx0.ne'
    intro l hl
    simp only [LawfulLengths.abs, htop] at hl
    rcases List.mem_pair.mp hl with rfl | rfl <;> assumption
  obtain ⟨fuel, D', h1, h2, h3⟩ := C69_decompose H hc hL hE hind h hlimit
  obtain ⟨steps', h4, -, -⟩ := C38_target H hL hE h (h1 fuel le_rfl)
  obtain ⟨z, hz⟩ := List.length_eq_one_iff.mp (rotation_comps H hL hE htop hbottom h4)
  have hlen : z.iet.top.length = 2 := by simpa [hz, htop] using h3
  refine ⟨fuel, D', z, h1, hz, ?_⟩
  rcases h2 z (by simp [hz]) with ⟨q1, q2⟩ | ⟨q1, q2⟩
  · obtain ⟨os, ho, -, hcy⟩ := C37_cylinder H hL hE h4 (ι := AddMonoidHom.id T) (fun _ _ h => h)
    have := (hcy 0 _ z (List.getElem?_eq_getElem (by rw [ho, hz]; simp)) (by simp [hz]) q1).1
    omega
  · exact ⟨q1, q2, hlen⟩

/-- Lengths `1` and `√2`. -/
example : ∃ (D D' : Decomp (SLengths Examples.Q2) Examples.Q2) (z : Comp Examples.Q2) (fuel : ℕ),
    Decomp.make (SLengths.ops Examples.q2Arith) Examples.rotIET Examples.rotState = .ok D ∧
    D.decompose PPL.ideal (SLengths.ops Examples.q2Arith) Decomp.defaultTarget (-1) fuel = .ok (true, D') ∧ D'.comps = [z] ∧
    z.withoutPeriodicTrajectory = some true := by
  obtain ⟨D, h1, -⟩ := Decomp.make_spec Examples.hQ2 (ι := AddMonoidHom.id _) (fun _ _ h => h) Examples.rot_ok
  obtain ⟨fuel, D', z, h2, h3, -, h4, -⟩ := C104_irrational Examples.hQ2 Examples.q2Coef_faithful PPL.ideal_lawful Examples.rot_ok (a := 0) (b := 1)
    rfl rfl (x := ⟨1, 0⟩) (y := ⟨0, 1⟩) rfl rfl (by
      intro n m h
      have := congrArg Zsqrtd.im h
      simpa using this) (.init h1) (limit := -1) le_rfl
  exact ⟨D, D', z, fuel, h1, h2 fuel le_rfl, h3, h4⟩

/-- Lengths `3√2` and `2√2`: a cylinder of width `√2`. -/
example : ∃ (D D' : Decomp (SLengths Examples.Q2) Examples.Q2) (z : Comp Examples.Q2) (l : Label) (u : Examples.Q2),
    Decomp.make (SLengths.ops Examples.q2Arith) (IET.fresh [0, 1] [1, 0]) ⟨[], [⟨0, 3⟩, ⟨0, 2⟩]⟩ = .ok D ∧
    D.decompose PPL.ideal (SLengths.ops Examples.q2Arith) Decomp.defaultTarget (-1) 33 = .ok (true, D') ∧ D'.comps = [z] ∧ z.iet.top = [l] ∧
    (SLengths.ops Examples.q2Arith).get l D'.lengths.inner = .ok u ∧ (⟨0, 3⟩ : Examples.Q2) = (3 : ℕ) * u := by
  have hok : Examples.hQ2.Ok (IET.fresh [0, 1] [1, 0]) ⟨[], [⟨0, 3⟩, ⟨0, 2⟩]⟩ := Examples.sample_ok _ _ _ _ (by decide)
  obtain ⟨D, h1, -⟩ := Decomp.make_spec Examples.hQ2 (ι := AddMonoidHom.id _) (fun _ _ h => h) hok
  obtain ⟨D', z, l, u, h2, h3, -, -, h4, h5, h6, -⟩ := C104_rational Examples.hQ2 PPL.ideal_lawful hok (a := 0) (b := 1)
    rfl rfl (x := ⟨0, 3⟩) (y := ⟨0, 2⟩) rfl rfl (n := 3) (m := 2) (by decide) (by decide) (by decide) (.init h1) (fuel := 33) le_rfl
  exact ⟨D, D', z, l, u, h1, h2, h3, h4, h5, h6⟩

end Verif
