import Verif.Model.Counter
import Verif.Props.Minimal

/-!
# C76: `induce()` without a limit

The loop counts its rounds with an `int`, and it only stops when a connection is visible at the left end point (or when a similar IET has been seen).  So, without
a limit, the behaviour is undefined for all IETs with a minimal part at the left.
-/

namespace Verif

set_option linter.unusedSectionVars false

variable {σ T ε : Type} [CommRing T] [LinearOrder T] [IsStrictOrderedRing T] {O : LengthsOps σ T} {d : ℕ} {c : T →+ (Fin d → ℚ)}

theorem induceLoopInt_limited (O : LengthsOps σ T) (z : Bool) {limit : ℤ} (hl : limit ≠ -1) (hl' : limit ≤ IET.intMax) :
    ∀ (m n : ℕ) (i : ℤ) (E : IET T) (s : σ), limit - i = m → m < n → IET.induceLoopInt O z limit n i E s = IET.induceLoop O z m E s
  | 0, n + 1, i, E, s, h1, _ => by
    have h : ¬ (limit = -1 ∨ i < limit) := by push_cast at h1; omega
    rw [IET.induceLoopInt, if_neg h, IET.induceLoop]
  | m + 1, n + 1, i, E, s, h1, h2 => by
    have h : limit = -1 ∨ i < limit := by push_cast at h1; omega
    have hi : i ≠ IET.intMax := by push_cast at h1; omega
    rw [IET.induceLoopInt, if_pos h, IET.induceLoop]
    simp only [if_neg hi, induceLoopInt_limited O z hl hl' m n (i + 1) _ _ (by push_cast at h1; omega) (by omega)]
  | _, 0, _, _, _, _, h2 => by omega

theorem induceLoopInt_unlimited (O : LengthsOps σ T) (z : Bool) : ∀ (m n : ℕ) (i : ℤ) (E : IET T) (s : σ), IET.intMax - i = m → m < n →
    IET.induceLoopInt O z (-1) n i E s = (do
      let r ← IET.induceLoop O z (m + 1) E s
      if r.1 = .exhausted then .error .ub else return r)
  | m, n + 1, i, E, s, h1, h2 => by
    rw [IET.induceLoopInt, if_pos (.inl rfl), IET.induceLoop]
    cases m with
    | zero =>
      have hi : i = IET.intMax := by push_cast at h1; omega
      simp only [if_pos hi, IET.induceLoop, bind, Except.bind, pure, Except.pure]
      rcases E.trackStep O z s with _ | ⟨_ | _, E⟩
      · rfl
      · rcases h : E.zorichInduction O s with _ | ⟨_ | _, E, s⟩
        · simp [h]
        · rcases h' : E.swap.zorichInduction O s with _ | ⟨_ | _, E, s⟩ <;> simp [h, h']
        · simp [h]
      · simp
    | succ m =>
      have hi : i ≠ IET.intMax := by push_cast at h1; omega
      simp only [if_neg hi, induceLoopInt_unlimited O z m n (i + 1) _ _ (by push_cast at h1; omega) (by omega)]
      simp only [bind, Except.bind, pure, Except.pure]
      rcases E.trackStep O z s with _ | ⟨_ | _, E⟩
      · rfl
      · rcases h : E.zorichInduction O s with _ | ⟨_ | _, E, s⟩
        · simp [h]
        · rcases h' : E.swap.zorichInduction O s with _ | ⟨_ | _, E, s⟩ <;> simp [h, h']
        · simp [h]
      · simp
  | _, 0, _, _, _, _, h2 => by omega

theorem induceInt_limited (L : PPL) (O : LengthsOps σ T) (fuel : ℕ) {limit : ℤ} (hl : limit ≠ -1) (hl' : limit ≤ IET.intMax) (E : IET T) (s : σ) :
    E.induceInt L O limit s = E.induce L O fuel limit s := by
  have hp : E.inducePhaseInt O limit s = E.inducePhase O fuel limit s := by
    unfold IET.inducePhaseInt IET.inducePhase
    by_cases h0 : limit = 0
    · rw [if_pos h0, if_pos h0]
    · rw [if_neg h0, if_neg h0]
      refine bind_congr fun r => ?_
      obtain ⟨z, E⟩ := r
      simp only [if_neg hl]
      by_cases hn : 0 < limit
      · exact induceLoopInt_limited O z hl hl' limit.toNat (2 ^ 31) 0 E s (by omega) (by unfold IET.intMax at hl'; omega)
      · have e : limit.toNat = 0 := by omega
        rw [e, show (2 : ℕ) ^ 31 = 2147483647 + 1 by norm_num, IET.induceLoopInt, if_neg (by omega), IET.induceLoop]
  unfold IET.induceInt IET.induce
  rw [hp]

theorem inducePhaseInt_unlimited (O : LengthsOps σ T) (E : IET T) (s : σ) : E.inducePhaseInt O (-1) s = (do
    let (zero, E) ← E.saf0 O s
    let r ← IET.induceLoop O zero (2 ^ 31) E s
    if r.1 = .exhausted then .error .ub else return r) := by
  unfold IET.inducePhaseInt
  rw [if_neg (by omega)]
  refine bind_congr fun r => ?_
  obtain ⟨z, E⟩ := r
  simp only
  rw [induceLoopInt_unlimited O z 2147483647 (2 ^ 31) 0 E s (by unfold IET.intMax; norm_num) (by norm_num), show 2147483647 + 1 = (2 : ℕ) ^ 31 by norm_num]

/-- Nothing but the loop can run out of fuel. -/
theorem induce_of_phase (H : LawfulLengths O c ε) {L : PPL} (hL : L.Lawful) {fuel : ℕ} {limit : ℤ} {E : IET T} {s : σ} (h : H.Good E s) (h1 : E.size ≠ 1)
    {r : IET.LoopEnd × IET T × σ} (hr : E.inducePhase O fuel limit s = .ok r) : ∃ r', E.induce L O fuel limit s = .ok r' := by
  unfold IET.induce
  simp only [h1, if_false, bind, Except.bind]
  rcases inducePhase_spec H fuel limit E s h with ⟨hp, hl⟩ | ⟨e, E₁, s', hp, hm, hc, he1, he2, he3, he4⟩
  · rw [hp] at hr; cases hr
  · simp only [hp]
    by_cases ha : e = .autoSimilar
    · rw [if_pos ha]; exact ⟨_, rfl⟩
    · rw [if_neg ha]
      have hT : H.TrackInv Steps E₁ s' := by
        cases e with
        | exhausted => exact (he1 rfl).1.weaken
        | found => exact (he2 rfl).1
        | autoSimilar => exact absurd rfl ha
      have hlen : E₁.top.length ≠ 1 := by
        have := hm.top_perm.length_eq
        simp only at this
        rw [this]; exact h1
      obtain ⟨step, E', f1, f2, f3, f4⟩ := induceFinish_spec H hL (found := decide (e = .found)) (hm.ok h.ok) hc hT hlen
        (by
          intro hd
          have : e ≠ .found := by simpa using hd
          cases e with
          | exhausted => exact (he1 rfl).1
          | found => exact absurd rfl this
          | autoSimilar => exact absurd rfl ha)
        (by intro hd; exact (he2 (by simpa using hd)).2)
      rw [f1]
      exact ⟨_, rfl⟩

theorem induceInt_unlimited (H : LawfulLengths O c ε) {L : PPL} (hL : L.Lawful) {E : IET T} {s : σ} (h : H.Good E s) :
    (E.induce L O (2 ^ 31) (-1) s = .error .fuel ∧ E.induceInt L O (-1) s = .error .ub) ∨
    ∃ r, E.induce L O (2 ^ 31) (-1) s = .ok r ∧ E.induceInt L O (-1) s = .ok r := by
  have key : (E.inducePhase O (2 ^ 31) (-1) s = .error .fuel ∧ E.inducePhaseInt O (-1) s = .error .ub) ∨
      ∃ r, E.inducePhase O (2 ^ 31) (-1) s = .ok r ∧ E.inducePhaseInt O (-1) s = .ok r := by
    have hg : H.Good { E with safCache := some (safList c (H.unswapped E s)) } s :=
      ⟨h.ok.congr rfl rfl, LawfulLengths.CacheOk.some, h.track.congr rfl rfl rfl rfl rfl id⟩
    rw [inducePhaseInt_unlimited]
    unfold IET.inducePhase
    rw [if_neg (by omega), saf0_spec H h.ok h.cache]
    obtain ⟨e, E', s', h1, -⟩ := induceLoop_spec H (decide (∀ x ∈ safList c (H.abs E s), x = 0)) (2 ^ 31) _ s hg
    simp only [bind, Except.bind, if_true, h1]
    by_cases he : e = .exhausted
    · left; rw [if_pos he, if_pos he]; exact ⟨rfl, rfl⟩
    · right; rw [if_neg he, if_neg he]; exact ⟨_, rfl, rfl⟩
  by_cases h1 : E.size = 1
  · right
    unfold IET.induce IET.induceInt
    simp only [h1, if_true, pure, Except.pure]
    exact ⟨_, rfl, rfl⟩
  · rcases key with ⟨k1, k2⟩ | ⟨r, k1, k2⟩
    · left
      unfold IET.induce IET.induceInt
      simp only [h1, if_false, k1, k2, bind, Except.bind, and_self]
    · have e : E.induceInt L O (-1) s = E.induce L O (2 ^ 31) (-1) s := by
        unfold IET.induce IET.induceInt
        rw [k1, k2]
      obtain ⟨r', h2⟩ := induce_of_phase H hL h h1 k1
      exact .inr ⟨r', h2, e.trans h2⟩

theorem LastRound.not_round {A B C : AIET T} (hA : A.Valid) (h : LastRound A B) : ¬ Round A C := by
  rintro ⟨D, h1, h2, h3, h4⟩
  rcases h with ⟨g1, g2⟩ | ⟨D', g1, g2, g3, g4⟩
  · exact h2 (h1.unique hA g1 ▸ g2)
  · obtain rfl := h1.unique hA g1
    exact h4 (inv_inj (TopPhase.unique (h1.valid hA).inv h3 g3) ▸ g4)

/-- **C76** With a limit, the counter is harmless. -/
theorem C76_limited (H : LawfulLengths O c ε) {L : PPL} (hL : L.Lawful) {w : World σ T} (h : Reachable H L w) {E : IET T} (hE : E ∈ w.pieces)
    {limit : ℤ} (hl : limit ≠ -1) (hl' : limit < 2 ^ 31) : ∃ r, E.induceInt L O limit w.lengths = .ok r ∧ ∀ fuel, E.induce L O fuel limit w.lengths = .ok r := by
  have e := fun fuel => induceInt_limited L O fuel hl (by unfold IET.intMax; omega) E w.lengths
  rcases induce_spec H hL 0 limit E w.lengths (h.good hL hE) with ⟨-, h1⟩ | ⟨step, E', s', h1, -⟩
  · exact absurd h1 hl
  · exact ⟨_, (e 0).trans h1, fun fuel => ((e fuel).symm.trans (e 0)).trans h1⟩

/-- **C76** Without a limit, `induce()` returns what it would return with an unbounded counter, or the counter overflows. -/
theorem C76_unlimited (H : LawfulLengths O c ε) {L : PPL} (hL : L.Lawful) {w : World σ T} (h : Reachable H L w) {E : IET T} (hE : E ∈ w.pieces) :
    (E.induceInt L O (-1) w.lengths = .error .ub ∧ E.induce L O (2 ^ 31) (-1) w.lengths = .error .fuel) ∨
    ∃ r, E.induceInt L O (-1) w.lengths = .ok r ∧ E.induce L O (2 ^ 31) (-1) w.lengths = .ok r := by
  rcases induceInt_unlimited H hL (h.good hL hE) with ⟨h1, h2⟩ | ⟨r, h1, h2⟩
  · exact .inl ⟨h2, h1⟩
  · exact .inr ⟨r, h2, h1⟩

/-- **C76** When the SAF invariant is not zero, the counter overflows if and only if no saddle connection becomes visible in `2 ^ 31` rounds. -/
theorem C76_overflow (H : LawfulLengths O c ε) {L : PPL} (hL : L.Lawful) {w : World σ T} (h : Reachable H L w) {E : IET T} (hE : E ∈ w.pieces)
    (hlen : E.top.length ≠ 1) (hsaf : ¬ ∀ x ∈ safList c (H.abs E w.lengths), x = 0) :
    E.induceInt L O (-1) w.lengths = .error .ub ↔ ∃ B, Iter Round (2 ^ 31) (H.abs E w.lengths) B := by
  have hg := h.good hL hE
  have hv := hg.ok.valid
  have hg' : H.Good { E with safCache := some (safList c (H.unswapped E w.lengths)) } w.lengths :=
    ⟨hg.ok.congr rfl rfl, LawfulLengths.CacheOk.some, hg.track.congr rfl rfl rfl rfl rfl id⟩
  have hz : decide (∀ x ∈ safList c (H.abs E w.lengths), x = 0) = false := decide_eq_false hsaf
  obtain ⟨e, E', s', h1, h2⟩ := induceLoop_spec H false (2 ^ 31) _ w.lengths hg'
  have h3 := induceLoop_rounds H _ _ _ _ hg' _ _ _ h1
  have hp : E.inducePhase O (2 ^ 31) (-1) w.lengths = if e = .exhausted then .error .fuel else .ok (e, E', s') := by
    unfold IET.inducePhase
    rw [if_neg (by omega), saf0_spec H hg.ok hg.cache]
    simp only [bind, Except.bind, if_true, hz, h1, pure, Except.pure]
  constructor
  · intro hub
    rcases induceInt_unlimited H hL hg with ⟨h4, -⟩ | ⟨r, -, h4⟩
    · by_cases he : e = .exhausted
      · subst he; exact ⟨_, h3⟩
      · rw [if_neg he] at hp
        obtain ⟨r, hr⟩ := induce_of_phase H hL hg hlen hp
        rw [h4] at hr; cases hr
    · rw [hub] at h4; cases h4
  · rintro ⟨B, hB⟩
    have he : e = .exhausted := by
      cases e with
      | exhausted => rfl
      | found =>
        exfalso
        obtain ⟨m, hm, M, g1, g2⟩ := h3
        obtain ⟨n, hn⟩ : ∃ n, (2 : ℕ) ^ 31 = m + 1 + n := ⟨2 ^ 31 - (m + 1), by omega⟩
        rw [hn] at hB
        obtain ⟨C, hC⟩ := Iter.shorter hB
        obtain ⟨M', g3, g4⟩ := Iter.snoc hC
        obtain rfl := rounds_unique hv g1 g3
        exact g2.not_round (rounds_valid hv g1) g4
      | autoSimilar => exact absurd (h2.auto rfl).1 (by simp)
    rw [if_pos he] at hp
    rcases induceInt_unlimited H hL hg with ⟨-, h4⟩ | ⟨r, h4, -⟩
    · exact h4
    · exfalso
      unfold IET.induce at h4
      rw [if_neg (show ¬ E.size = 1 from hlen)] at h4
      simp only [hp, bind, Except.bind] at h4
      cases h4

/-- When a saddle connection never becomes visible then `induce()` without a limit does not return. -/
theorem induce_unlimited_never (H : LawfulLengths O c ε) {L : PPL} (hL : L.Lawful) {E : IET T} {s : σ} (hg : H.Good E s) (hlen : E.top.length ≠ 1)
    (hsaf : ¬ ∀ x ∈ safList c (H.abs E s), x = 0) (hlev : ∀ B, Steps (H.abs E s) B → ¬ B.Level) (fuel : ℕ) : E.induce L O fuel (-1) s = .error .fuel := by
  rcases induce_spec H hL fuel (-1) E s hg with ⟨h1, -⟩ | ⟨step, E', s', h1, hs, -⟩
  · exact h1
  exfalso
  cases hs with
  | cylinder h2 => exact hlen h2
  | auto _ _ _ _ h0 => exact hsaf h0
  | @finish E₁ _ _ _ h2 hm hf _ hh => exact hlev _ hm.steps ((H.level_iff (hm.ok hg.ok)).mpr (hh rfl))

theorem Steps.free {A B : AIET T} (hA : A.Valid) (h : Steps A B) (hf : A.Free) : B.Free := by
  induction h with
  | refl => exact hf
  | tail h1 h2 ih => exact AIET.Free.step (Steps.valid hA h1) ih h2

/-- **C76** When there is no saddle connection at all and the SAF invariant is not zero, then `induce()` without a limit never returns.  Its counter overflows. -/
theorem C76_minimal (H : LawfulLengths O c ε) {L : PPL} (hL : L.Lawful) {w : World σ T} (h : Reachable H L w) {E : IET T} (hE : E ∈ w.pieces)
    (hlen : E.top.length ≠ 1) (hsaf : ¬ ∀ x ∈ safList c (H.abs E w.lengths), x = 0) (hcon : ¬ (H.abs E w.lengths).HasConnection) :
    (∀ fuel, E.induce L O fuel (-1) w.lengths = .error .fuel) ∧ E.induceInt L O (-1) w.lengths = .error .ub := by
  have hg := h.good hL hE
  have hv := hg.ok.valid
  have h1 : ∀ fuel, E.induce L O fuel (-1) w.lengths = .error .fuel := by
    refine fun fuel => induce_unlimited_never H hL hg hlen hsaf (fun B hB => ?_) fuel
    refine (Steps.free hv hB ((AIET.free_iff hv).mpr hcon)).not_level (Steps.valid hv hB) ?_
    rw [(Steps.top_perm hB).length_eq]
    exact hlen
  refine ⟨h1, ?_⟩
  rcases C76_unlimited H hL h hE with ⟨h2, -⟩ | ⟨r, -, h2⟩
  · exact h2
  · rw [h1] at h2; cases h2

/-- **C76** The same happens when there is a separating connection and no connection to the left of it: the separating connection is reported for all limits but
not without a limit. -/
theorem C76_separating (H : LawfulLengths O c ε) {L : PPL} (hL : L.Lawful) {w : World σ T} (h : Reachable H L w) {E : IET T} (hE : E ∈ w.pieces)
    (hsaf : ¬ ∀ x ∈ safList c (H.abs E w.lengths), x = 0) {k : ℕ} (hk : 1 < k) (hk' : k < E.top.length)
    (hperm : (E.bottom.take k).Perm (E.top.take k)) (hcon : ¬ (AIET.mk (E.top.take k) (E.bottom.take k) (H.len w.lengths)).HasConnection) :
    (∀ limit : ℤ, limit ≠ -1 → ∀ fuel, ∃ step E' s', E.induce L O fuel limit w.lengths = .ok (step, E', s') ∧ step.result = .separatingConnection) ∧
    (∀ fuel, E.induce L O fuel (-1) w.lengths = .error .fuel) ∧ E.induceInt L O (-1) w.lengths = .error .ub := by
  have hg := h.good hL hE
  have hv := hg.ok.valid
  have hcut' : ∃ l r, IsCut (H.abs E w.lengths) l r k ∧ l.Free := by
    have hlv : (AIET.mk (E.top.take k) (E.bottom.take k) (H.len w.lengths)).Valid := by
      refine ⟨?_, hv.nodup.sublist (List.take_sublist _ _), hperm, fun a ha => hv.pos a (List.mem_of_mem_take ha)⟩
      intro e
      have := congrArg List.length e
      simp only [List.length_take, List.length_nil] at this
      omega
    have hf := (AIET.free_iff hlv).mpr hcon
    refine ⟨_, _, ⟨by omega, hk', rfl, rfl, hperm, fun j hj hj' hp => ?_⟩, hf⟩
    refine hf.irreducible hlv j hj (by simp only [List.length_take]; omega) ?_
    simp only [List.take_take, min_eq_left hj'.le]
    exact hp
  obtain ⟨l, r, hcut, hfree⟩ := hcut'
  have key : ∀ B, Steps (H.abs E w.lengths) B → ∃ l r, IsCut B l r k ∧ l.Free := by
    intro B hB
    induction hB with
    | refl => exact ⟨l, r, hcut, hfree⟩
    | @tail B C h1 h2 ih =>
      obtain ⟨l, r, g1, g2⟩ := ih
      have hB := Steps.valid hv h1
      obtain ⟨l', r', g3, g4, -⟩ := g1.rauzyStep hB h2
      exact ⟨l', r', g3, g2.step (g1.valid_left hB) g4⟩
  have hlev : ∀ B, Steps (H.abs E w.lengths) B → ¬ B.Level := by
    intro B hB hl
    obtain ⟨l, r, g1, g2⟩ := key B hB
    refine g2.not_level (g1.valid_left (Steps.valid hv hB)) ?_ ?_
    · rw [g1.left_eq]
      have := g1.lt
      simp only [List.length_take]
      omega
    · obtain ⟨a, b, ha, hb, hab⟩ := hl
      rw [g1.left_eq]
      exact ⟨a, b, by rw [← ha]; rw [List.head?_take, if_neg (by omega)], by rw [← hb]; rw [List.head?_take, if_neg (by omega)], hab⟩
  have h1 := induce_unlimited_never H hL hg (by omega) hsaf hlev
  refine ⟨fun limit hl fuel => ?_, h1, ?_⟩
  · rcases induce_spec H hL fuel limit E w.lengths hg with ⟨-, h2⟩ | ⟨step, E', s', h2, hs, -⟩
    · exact absurd h2 hl
    refine ⟨step, E', s', h2, ?_⟩
    cases hs with
    | cylinder h2 => omega
    | auto _ _ _ _ h0 => exact absurd h0 hsaf
    | @finish E₁ _ _ _ h2 hm hf _ hh =>
      have hirr : ¬ (H.abs E₁ s').Irreducible := by
        intro hi
        obtain ⟨l, r, g1, -⟩ := key _ hm.steps
        exact hi k (by omega) g1.lt (g1.left_eq ▸ g1.perm).symm
      cases hf with
      | separating _ => rfl
      | nonSeparating h3 => exact absurd h3 hirr
      | boshernitzan _ _ h3 => exact absurd h3 hirr
      | limit _ _ h3 => exact absurd h3 hirr
  · rcases C76_unlimited H hL h hE with ⟨h2, -⟩ | ⟨r, -, h2⟩
    · exact h2
    · rw [h1] at h2; cases h2

/-! ### Examples: a rotation with lengths `1` and `√2`, and two of them next to each other -/

open Examples in
example : (∀ fuel, q2RotIET.induce PPL.ideal (SLengths.ops q2Arith) fuel (-1) q2RotState = .error .fuel) ∧
    q2RotIET.induceInt PPL.ideal (SLengths.ops q2Arith) (-1) q2RotState = .error .ub := by
  have hsaf : q2RotIET.rawSaf (SLengths.ops q2Arith) q2RotState = .ok [2] := by decide +kernel
  rw [rawSaf_spec hQ2 q2Rot_ok] at hsaf
  refine C76_minimal hQ2 PPL.ideal_lawful (w := ⟨[q2RotIET], q2RotState⟩) (.init (by simp; exact ⟨rfl, q2Rot_ok⟩) (by simp)) (by simp) (by decide)
    (by rw [Except.ok.inj hsaf]; simp) ?_
  rintro ⟨t, ht, b, hb, n, hn⟩
  exact C21_keane hQ2 PPL.ideal_lawful q2Rot_ok
    (C69_noSaddleConnection hQ2 q2_faithful PPL.ideal_lawful q2Rot_ok (by decide) q2Rot_irreducible q2Rot_independent)
    (ι := AddMonoidHom.id Q2) (fun _ _ h => h) ht hb n hn

/-- Two rotations. -/
def Examples.q2TwoIET : IET Examples.Q2 := .fresh [0, 1, 2, 3] [1, 0, 3, 2]
/-- Their lengths `1`, `√2`, `1`, `√2`. -/
def Examples.q2TwoState : SLengths Examples.Q2 := ⟨[], [⟨1, 0⟩, ⟨0, 1⟩, ⟨1, 0⟩, ⟨0, 1⟩]⟩
theorem Examples.q2Two_ok : Examples.hQ2.Ok Examples.q2TwoIET Examples.q2TwoState := Examples.sample_ok _ _ _ _ (by decide)
theorem Examples.q2Left_ok : Examples.hQ2.Ok Examples.q2RotIET Examples.q2TwoState := Examples.sample_ok _ _ _ _ (by decide)

theorem Examples.q2Left_independent : (Examples.hQ2.abs Examples.q2RotIET Examples.q2TwoState).Independent := by
  intro z hz
  have h1 : ((z 0 : ℤ) : Examples.Q2) * ⟨1, 0⟩ + (((z 1 : ℤ) : Examples.Q2) * ⟨0, 1⟩ + 0) = 0 := hz
  have h2 := congrArg Zsqrtd.re h1
  have h3 := congrArg Zsqrtd.im h1
  simp at h2 h3
  intro a ha
  have ha' : a ∈ [0, 1] := ha
  simp at ha'
  rcases ha' with rfl | rfl
  · exact h2
  · exact h3

open Examples in
/-- `induce(1000)` reports a separating connection, `induce()` does not terminate. -/
example : (∃ step E' s', q2TwoIET.induce PPL.ideal (SLengths.ops q2Arith) 0 1000 q2TwoState = .ok (step, E', s') ∧ step.result = .separatingConnection) ∧
    q2TwoIET.induceInt PPL.ideal (SLengths.ops q2Arith) (-1) q2TwoState = .error .ub := by
  have hsaf : q2TwoIET.rawSaf (SLengths.ops q2Arith) q2TwoState = .ok [4] := by decide +kernel
  rw [rawSaf_spec hQ2 q2Two_ok] at hsaf
  obtain ⟨h1, -, h2⟩ := C76_separating hQ2 PPL.ideal_lawful (w := ⟨[q2TwoIET], q2TwoState⟩) (E := q2TwoIET)
    (.init (by simp; exact ⟨rfl, q2Two_ok⟩) (by simp)) (by simp)
    (by rw [Except.ok.inj hsaf]; simp) (k := 2) (by decide) (by decide) (by decide) (by
      rintro ⟨t, ht, b, hb, n, hn⟩
      exact C21_keane hQ2 PPL.ideal_lawful q2Left_ok
        (C69_noSaddleConnection hQ2 q2_faithful PPL.ideal_lawful q2Left_ok (by decide) q2Rot_irreducible q2Left_independent)
        (ι := AddMonoidHom.id Q2) (fun _ _ h => h) ht hb n hn)
  exact ⟨h1 1000 (by decide) 0, h2⟩

end Verif
