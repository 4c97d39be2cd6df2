import Verif.Props.Rotation
import Verif.Props.Genus
import Verif.Props.LengthGroup
import Verif.Props.Cylinders

/-!
# C103: decomposing an exchange of two intervals of integer length is Euclid's algorithm
-/

namespace Verif

set_option linter.unusedSectionVars false

variable {σ T ε P : Type} [CommRing T] [LinearOrder T] [IsStrictOrderedRing T] [CommRing P] [LinearOrder P]
  [IsStrictOrderedRing P] {O : LengthsOps σ T} {d : ℕ} {c : T →+ (Fin d → ℚ)}

theorem rotation_genus (H : LawfulLengths O c ε) {E : IET T} {s : σ} (hE : H.Ok E s) {a b : Label} (htop : E.top = [a, b])
    (hbottom : E.bottom = [b, a]) : 1 ≤ E.genus := by
  have hab : a ≠ b := by have := hE.valid.nodup; simpa [LawfulLengths.abs, htop] using this
  by_contra h0
  have h1 := C91_even H hE
  rw [show E.genus = 0 by omega, mul_zero, Matrix.rank, Submodule.finrank_eq_zero, LinearMap.range_eq_bot] at h1
  have := congrFun (LinearMap.congr_fun h1 (Pi.single ⟨b, by simp [htop]⟩ 1)) ⟨a, by simp [htop]⟩
  simp [IET.crossing, htop, hbottom, List.idxOf_cons] at this
  rw [show (b == a) = false by simp [hab.symm]] at this
  simp at this

/-- An exchange of two intervals never falls apart. -/
theorem rotation_comps (H : LawfulLengths O c ε) {L : PPL} (hL : L.Lawful) {E : IET T} {s : σ} (hE : H.Ok E s) {a b : Label}
    (htop : E.top = [a, b]) (hbottom : E.bottom = [b, a]) {D : Decomp σ T} {steps : List DStep} (h : DReach L O E s D steps) :
    D.comps.length = 1 := by
  have h1 := rotation_genus H hE htop hbottom
  have h2 := C91_components H hL hE h
  have h3 := (DReach.counts H hL hE h).1
  rw [htop] at h2
  simp at h2
  omega

/-- **C103** If an IET that exchanges two intervals has been decomposed into cylinders then there is exactly one cylinder and the
divisors of its width are the common divisors of the two lengths. -/
theorem C103_divisors (H : LawfulLengths O c ε) {L : PPL} (hL : L.Lawful) {E : IET T} {s : σ} (hE : H.Ok E s) {a b : Label}
    (htop : E.top = [a, b]) (hbottom : E.bottom = [b, a]) {x y : T} (hx : O.get a s = .ok x) (hy : O.get b s = .ok y)
    {D : Decomp σ T} {steps : List DStep} (h : DReach L O E s D steps) (hD : ∀ z ∈ D.comps, z.cylinder = some true) :
    ∃ (z : Comp T) (l : Label) (g : T), D.comps = [z] ∧ z.iet.top = [l] ∧ O.get l D.lengths.inner = .ok g ∧ 0 < g ∧
      ∀ m, m ∣ g ↔ m ∣ x ∧ m ∣ y := by
  obtain ⟨z, hz⟩ := List.length_eq_one_iff.mp (rotation_comps H hL hE htop hbottom h)
  have hinv := h.inv hL H (ι := AddMonoidHom.id T) (fun _ _ h => h) hE
  have hzm : z ∈ D.comps := by simp [hz]
  have hok := (hinv.good z hzm).ok
  have hlen : ∀ z ∈ D.comps, z.iet.top.length = 1 := by
    intro z' hz'
    obtain ⟨os, ho, -, hc⟩ := C37_cylinder H hL hE h (ι := AddMonoidHom.id T) (fun _ _ h => h)
    obtain ⟨i, hi, rfl⟩ := List.mem_iff_getElem.mp hz'
    exact (hc i _ _ (List.getElem?_eq_getElem (ho ▸ hi)) (List.getElem?_eq_getElem hi) (hD _ hz')).1
  obtain ⟨l, hl⟩ := List.length_eq_one_iff.mp (hlen z hzm)
  have hxl : x = H.len s a := by
    have := H.get_spec s a hE.inv (hE.dom a (by simp [htop]))
    rw [hx] at this
    exact Except.ok.inj this
  have hyl : y = H.len s b := by
    have := H.get_spec s b hE.inv (hE.dom b (by simp [htop]))
    rw [hy] at this
    exact Except.ok.inj this
  refine ⟨z, l, H.len D.lengths.inner l, hz, hl, H.get_spec _ _ hok.inv.1 ((hok.dom l (by simp [hl])).1),
    hok.valid.pos l (by simp [LawfulLengths.abs, hl]), fun m => ?_⟩
  have := C88_divides H hL hE h hlen m
  rw [htop, hxl, hyl]  at *
  simpa [Decomp.cylinders, hz, hl] using this

/-- **C103** If the lengths are integers then the width of the cylinder is their greatest common divisor. -/
theorem C103_gcd {O : LengthsOps σ ℤ} {d : ℕ} {c : ℤ →+ (Fin d → ℚ)} (H : LawfulLengths O c ε) {L : PPL} (hL : L.Lawful) {E : IET ℤ} {s : σ}
    (hE : H.Ok E s) {a b : Label} (htop : E.top = [a, b]) (hbottom : E.bottom = [b, a]) {x y : ℤ} (hx : O.get a s = .ok x)
    (hy : O.get b s = .ok y) {D : Decomp σ ℤ} {steps : List DStep} (h : DReach L O E s D steps)
    (hD : ∀ z ∈ D.comps, z.cylinder = some true) :
    ∃ (z : Comp ℤ) (l : Label), D.comps = [z] ∧ z.iet.top = [l] ∧ O.get l D.lengths.inner = .ok (Int.gcd x y) := by
  obtain ⟨z, l, g, h1, h2, h3, h4, h5⟩ := C103_divisors H hL hE htop hbottom hx hy h hD
  refine ⟨z, l, h1, h2, ?_⟩
  have hg : g = Int.gcd x y := by
    apply Int.eq_of_associated_of_nonneg
    · apply associated_of_dvd_dvd
      · obtain ⟨q1, q2⟩ := (h5 g).mp dvd_rfl
        exact Int.dvd_coe_gcd q1 q2
      · exact (h5 _).mpr ⟨Int.gcd_dvd_left .., Int.gcd_dvd_right ..⟩
    · exact h4.le
    · exact Int.natCast_nonneg _
  rw [h3, hg]

/-- **C103** `decompose()` returns true and computes the greatest common divisor, unless the lengths have more than half a billion
binary digits. -/
theorem C103_decompose {O : LengthsOps σ ℤ} {d : ℕ} {c : ℤ →+ (Fin d → ℚ)} (H : LawfulLengths O c ε) {L : PPL} (hL : L.Lawful) {E : IET ℤ}
    {s : σ} (hE : H.Ok E s) {a b : Label} (htop : E.top = [a, b]) (hbottom : E.bottom = [b, a]) {x y : ℕ} (hx : O.get a s = .ok (x : ℤ))
    (hy : O.get b s = .ok (y : ℤ)) (hbound : 2 * (1 + Nat.log 2 x + Nat.log 2 y) ≤ 2 ^ 31 - 3) {D : Decomp σ ℤ} {steps : List DStep}
    (h : DReach L O E s D steps) {fuel : ℕ} (hfuel : 33 ≤ fuel) :
    ∃ (D' : Decomp σ ℤ) (z : Comp ℤ) (l : Label), D.decompose L O Decomp.defaultTarget (-1) fuel = .ok (true, D') ∧ D'.comps = [z] ∧
      z.cylinder = some true ∧ z.iet.top = [l] ∧ O.get l D'.lengths.inner = .ok (Nat.gcd x y : ℤ) := by
  have hab : a ≠ b := by have := hE.valid.nodup; simpa [LawfulLengths.abs, htop] using this
  obtain ⟨D', h1, h2⟩ := C39_decompose H hL hE (u := 1) one_pos (k := fun l => if l = a then x else y) (by
      intro l hl
      rw [htop] at hl
      rcases List.mem_pair.mp hl with rfl | rfl
      · simpa using hx
      · simpa [hab.symm] using hy) (by
      rw [htop]
      simp [hab.symm]
      omega) h (fuel := fuel) (by rw [htop]; simpa using hfuel)
  obtain ⟨steps', h3, -, -⟩ := C38_target H hL hE h h1
  obtain ⟨z, l, g1, g2, g3⟩ := C103_gcd H hL hE htop hbottom hx hy h3 (fun z hz => (h2 z hz).1)
  exact ⟨D', z, l, h1, g1, (h2 z (by simp [g1])).1, g2, by simpa using g3⟩

/-- Where the orbit of a point is after `n` steps. -/
theorem rotation_iter {a b : Label} (hab : a ≠ b) {len : Label → P} (hx0 : 0 < len a) (hy0 : 0 < len b) (n : ℕ) :
    ∀ {p : P}, 0 ≤ p → p < len a + len b → ∃ (q : P) (w : ℤ), 0 ≤ q ∧ q < len a + len b ∧ q = p + n * len b - w * (len a + len b) ∧
      ∀ r, Iter (AIET.mk [a, b] [b, a] len).Maps n p r ↔ r = q := by
  have step : ∀ p : P, 0 ≤ p → p < len a + len b → ∃ (q : P) (w : ℤ), 0 ≤ q ∧ q < len a + len b ∧ q = p + len b - w * (len a + len b) ∧
      ∀ r, (AIET.mk [a, b] [b, a] len).Maps p r ↔ r = q := by
    intro p h0 h1
    rcases lt_or_ge p (len a) with h | h
    · refine ⟨p + len b, 0, by linarith, by linarith, by simp, fun r => ?_⟩
      simp [AIET.Maps, off, hab, hab.symm, h0, h, not_le.mpr h]
    · refine ⟨p - len a, 1, by linarith, by linarith, by push_cast; ring, fun r => ?_⟩
      simp [AIET.Maps, off, hab, hab.symm, h, h1, not_lt.mpr h]
  induction n with
  | zero => exact fun {p} h0 h1 => ⟨p, 0, h0, h1, by simp, fun r => by simp [Iter, eq_comm]⟩
  | succ n ih =>
    intro p h0 h1
    obtain ⟨z, v, s1, s2, s3, s4⟩ := step p h0 h1
    obtain ⟨q, w, t1, t2, t3, t4⟩ := ih s1 s2
    refine ⟨q, w + v, t1, t2, by rw [t3, s3]; push_cast; ring, fun r => ?_⟩
    simp [Iter, s4, t4]

/-- **C103** The orbits of all the points close up exactly after the multiples of the number of steps that is the sum of the two
lengths divided by their greatest common divisor. -/
theorem C103_period {O : LengthsOps σ ℤ} {d : ℕ} {c : ℤ →+ (Fin d → ℚ)} (H : LawfulLengths O c ε) {E : IET ℤ} {s : σ} (hE : H.Ok E s)
    {a b : Label} (htop : E.top = [a, b]) (hbottom : E.bottom = [b, a]) {x y : ℤ} (hx : O.get a s = .ok x) (hy : O.get b s = .ok y)
    {p : P} (h0 : 0 ≤ p) (h1 : p < ((x + y : ℤ) : P)) (n : ℕ) :
    Iter ((H.abs E s).map (Int.castAddHom P)).Maps n p p ↔ (x + y) / (Int.gcd x y) ∣ n := by
  have hA : (H.abs E s).map (Int.castAddHom P) = ⟨[a, b], [b, a], fun l => (H.len s l : P)⟩ := by
    simp [LawfulLengths.abs, AIET.map, htop, hbottom]
  have hab : a ≠ b := by have := hE.valid.nodup; simpa [LawfulLengths.abs, htop] using this
  have hxl : H.len s a = x := by
    have := H.get_spec s a hE.inv (hE.dom a (by simp [htop]))
    rw [hx] at this
    exact (Except.ok.inj this).symm
  have hyl : H.len s b = y := by
    have := H.get_spec s b hE.inv (hE.dom b (by simp [htop]))
    rw [hy] at this
    exact (Except.ok.inj this).symm
  have hx0 : 0 < x := hxl ▸ hE.valid.pos a (by simp [LawfulLengths.abs, htop])
  have hy0 : 0 < y := hyl ▸ hE.valid.pos b (by simp [LawfulLengths.abs, htop])
  obtain ⟨q, w, q0, q1, q2, q3⟩ := rotation_iter hab (len := fun l => (H.len s l : P)) (by rw [hxl]; exact_mod_cast hx0)
    (by rw [hyl]; exact_mod_cast hy0) n h0 (by rw [hxl, hyl]; exact_mod_cast h1)
  rw [hA, q3]
  simp only [hxl, hyl] at q1 q2
  have hg : (0 : ℤ) < Int.gcd x y := by exact_mod_cast Int.gcd_pos_of_ne_zero_left y hx0.ne'
  have hz : q - p = ((n * y - w * (x + y) : ℤ) : P) := by rw [q2]; push_cast; ring
  have key : p = q ↔ (x + y) ∣ n * y := by
    constructor
    · intro e
      rw [e, sub_self] at hz
      have : (n * y - w * (x + y) : ℤ) = 0 := by exact_mod_cast hz.symm
      exact ⟨w, by linarith⟩
    · rintro ⟨k, hk⟩
      have hz' : q - p = (((k - w) * (x + y) : ℤ) : P) := by rw [hz, hk]; congr 1; ring
      have u1 : (((k - w) * (x + y) : ℤ) : P) < ((x + y : ℤ) : P) := by rw [← hz']; push_cast; push_cast at q1; linarith
      have u2 : (((-(x + y)) : ℤ) : P) < (((k - w) * (x + y) : ℤ) : P) := by rw [← hz']; push_cast; push_cast at h1; linarith
      have u1' : (k - w) * (x + y) < x + y := by exact_mod_cast u1
      have u2' : -(x + y) < (k - w) * (x + y) := by exact_mod_cast u2
      have : k - w = 0 := by
        have v1 : k - w < 1 := by by_contra hc; nlinarith
        have v2 : -1 < k - w := by by_contra hc; nlinarith
        omega
      rw [this] at hz'
      simp [sub_eq_zero] at hz'
      exact hz'.symm
  rw [key]
  obtain ⟨u, hu⟩ : (Int.gcd x y : ℤ) ∣ x := Int.gcd_dvd_left ..
  obtain ⟨v, hv⟩ : (Int.gcd x y : ℤ) ∣ y := Int.gcd_dvd_right ..
  have hcop : IsCoprime u v := by
    rw [Int.isCoprime_iff_gcd_eq_one]
    have := Int.gcd_mul_left (Int.gcd x y : ℤ) u v
    rw [← hu, ← hv, Int.natAbs_natCast] at this
    have hg' : 0 < Int.gcd x y := by exact_mod_cast hg
    exact Nat.eq_of_mul_eq_mul_left hg' (by rw [mul_one]; exact this.symm)
  set g : ℤ := (Int.gcd x y : ℤ)
  have e1 : x + y = g * (u + v) := by rw [mul_add, ← hu, ← hv]
  have e2 : (n : ℤ) * y = g * (n * v) := by rw [hv]; ring
  rw [e1, Int.mul_ediv_cancel_left _ hg.ne', e2, mul_dvd_mul_iff_left hg.ne']
  have hc2 : IsCoprime (u + v) v := by simpa using hcop.add_mul_right_left 1
  exact ⟨hc2.dvd_of_dvd_mul_right, fun h => h.mul_right _⟩

/-- Intervals of lengths `84` and `30`: `decompose()` finds a cylinder of width `6`, every point returns after `19` steps. -/
theorem Examples.euclid_ok : Examples.hInt.Ok (IET.fresh [0, 1] [1, 0]) ⟨[], [84, 30]⟩ := Examples.sample_ok _ _ _ _ (by decide)

example : ∃ (D D' : Decomp (SLengths ℤ) ℤ) (z : Comp ℤ) (l : Label),
    Decomp.make (SLengths.ops intArith) (IET.fresh [0, 1] [1, 0]) ⟨[], [84, 30]⟩ = .ok D ∧
    D.decompose PPL.ideal (SLengths.ops intArith) Decomp.defaultTarget (-1) 33 = .ok (true, D') ∧ D'.comps = [z] ∧ z.iet.top = [l] ∧
    (SLengths.ops intArith).get l D'.lengths.inner = .ok 6 := by
  obtain ⟨D, h1, -⟩ := Decomp.make_spec Examples.hInt (ι := AddMonoidHom.id ℤ) (fun _ _ h => h) Examples.euclid_ok
  obtain ⟨D', z, l, h2, h3, -, h4, h5⟩ := C103_decompose Examples.hInt PPL.ideal_lawful Examples.euclid_ok (a := 0) (b := 1) rfl rfl (x := 84)
    (y := 30) rfl rfl (by decide) (.init h1) (fuel := 33) le_rfl
  exact ⟨D, D', z, l, h1, h2, h3, h4, h5⟩

example : Iter ((Examples.hInt.abs (IET.fresh [0, 1] [1, 0]) ⟨[], [84, 30]⟩).map (Int.castAddHom ℚ)).Maps 19 (1 / 3) (1 / 3) :=
  (C103_period Examples.hInt Examples.euclid_ok (a := 0) (b := 1) rfl rfl (x := 84) (y := 30) rfl rfl (by norm_num) (by norm_num) 19).mpr
    (by decide)

end Verif
