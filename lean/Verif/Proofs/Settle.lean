import Verif.Proofs.RankTwo
import Verif.Props.Complete
import Verif.Props.Cylinders
import Verif.Props.Target

/-!
# Rounds of Zorich induction with two rational coordinates

There is a bound on the number of rounds of Zorich induction that do not settle a component.
-/

namespace Verif

set_option linter.unusedSectionVars false

/-- A sequence whose steps are finite sequences of steps. -/
theorem exists_flat {X : Type} {R : X → X → Prop} {F : ℕ → X} (h : ∀ n, Relation.TransGen R (F n) (F (n + 1))) :
    ∃ E : ℕ → X, E 0 = F 0 ∧ (∀ m, R (E m) (E (m + 1))) ∧ ∀ n, ∃ m, n ≤ m ∧ E m = F n := by
  have key : ∀ n, ∃ (k : ℕ) (p : ℕ → X), p 0 = F n ∧ p (k + 1) = F (n + 1) ∧ ∀ i ≤ k, R (p i) (p (i + 1)) := by
    intro n
    have : ∀ {x y : X}, Relation.TransGen R x y → ∃ (k : ℕ) (p : ℕ → X), p 0 = x ∧ p (k + 1) = y ∧ ∀ i ≤ k, R (p i) (p (i + 1)) := by
      intro x y h
      induction h with
      | @single y h => exact ⟨0, fun i => if i = 0 then x else y, by simp, by simp, fun i hi => by rw [Nat.le_zero.mp hi]; simpa using h⟩
      | @tail y z _ h ih =>
        obtain ⟨k, p, h1, h2, h3⟩ := ih
        refine ⟨k + 1, fun i => if i ≤ k + 1 then p i else z, by simpa using h1, by simp, fun i hi => ?_⟩
        rcases Nat.lt_or_ge i (k + 1) with hlt | hge
        · simp only [if_pos hi, if_pos (show i + 1 ≤ k + 1 by omega)]
          exact h3 i (by omega)
        · obtain rfl : i = k + 1 := by omega
          simp only [if_pos hi, if_neg (show ¬ k + 1 + 1 ≤ k + 1 by omega), h2]
          exact h
    exact this (h n)
  choose k p h1 h2 h3 using key
  let next : ℕ × ℕ → ℕ × ℕ := fun q => if q.2 < k q.1 then (q.1, q.2 + 1) else (q.1 + 1, 0)
  let st : ℕ → ℕ × ℕ := fun m => next^[m] (0, 0)
  have hst : ∀ m, st (m + 1) = next (st m) := fun m => Function.iterate_succ_apply' _ _ _
  have hle : ∀ m, (st m).2 ≤ k (st m).1 := by
    intro m
    induction m with
    | zero => exact Nat.zero_le _
    | succ m ih =>
      rw [hst]
      by_cases hq : (st m).2 < k (st m).1
      · simp only [next, if_pos hq]; omega
      · simp only [next, if_neg hq]; exact Nat.zero_le _
  have hhit : ∀ n, ∃ m, n ≤ m ∧ st m = (n, 0) := by
    intro n
    induction n with
    | zero => exact ⟨0, le_refl _, rfl⟩
    | succ n ih =>
      obtain ⟨m, hm, hs⟩ := ih
      have hi : ∀ i ≤ k n, st (m + i) = (n, i) := by
        intro i
        induction i with
        | zero => intro _; exact hs
        | succ i ih' =>
          intro hi
          rw [show m + (i + 1) = m + i + 1 by omega, hst, ih' (by omega)]
          simp only [next, if_pos (show i < k n by omega)]
      refine ⟨m + k n + 1, by omega, ?_⟩
      rw [hst, hi _ (le_refl _)]
      simp [next]
  refine ⟨fun m => p (st m).1 (st m).2, h1 0, fun m => ?_, fun n => ?_⟩
  · have hr := h3 (st m).1 (st m).2 (hle m)
    simp only [hst]
    by_cases hq : (st m).2 < k (st m).1
    · simp only [next, if_pos hq]; exact hr
    · have e : (st m).2 = k (st m).1 := le_antisymm (hle m) (not_lt.mp hq)
      simp only [next, if_neg hq]
      rw [h1, ← h2, ← e]
      exact hr
  · obtain ⟨m, hm, hs⟩ := hhit n
    exact ⟨m, hm, by simp only [hs, h1]⟩

variable {T : Type} [CommRing T] [LinearOrder T] [IsStrictOrderedRing T]

/-- If the first intervals have different lengths, there is a step. -/
theorem AIET.Valid.exists_step {A : AIET T} (hA : A.Valid) (hl : ¬ A.Level) : (∃ B, RauzyTop A B) ∨ ∃ B, RauzyTop A.inv B := by
  have key : ∀ {A : AIET T}, A.Valid → ∀ {a b : Label}, A.top.head? = some a → A.bottom.head? = some b → A.len b < A.len a → ∃ B, RauzyTop A B := by
    intro A hA a b ha hb hlt
    obtain ⟨top, bottom, len⟩ := A
    cases top with
    | nil => cases ha
    | cons a' t =>
      cases bottom with
      | nil => cases hb
      | cons b' l =>
        cases ha
        cases hb
        have hne : a ≠ b := by rintro rfl; exact lt_irrefl _ hlt
        have hmem : a ∈ b :: l := hA.perm.mem_iff.mpr (by simp)
        obtain ⟨l₁, l₂, rfl⟩ := List.append_of_mem ((List.mem_cons.mp hmem).resolve_left hne)
        exact ⟨_, .mk a b t l₁ l₂ len hlt⟩
  obtain ⟨a, b, ha, hb⟩ := hA.heads
  rcases lt_trichotomy (A.len a) (A.len b) with h | h | h
  · exact .inr (key hA.inv (A := A.inv) hb ha h)
  · exact absurd ⟨a, b, ha, hb, h⟩ hl
  · exact .inl (key hA ha hb h)

/-- A round of Zorich induction consists of steps of Rauzy induction, at least one. -/
theorem Round.transGen {A B : AIET T} (hA : A.Valid) (h : Round A B) : Relation.TransGen RauzyStep A B := by
  obtain ⟨C, h1, h2, h3, -⟩ := h
  have hC := h1.valid hA
  have s1 : Relation.ReflTransGen RauzyStep A C := by
    have key : ∀ {a b : AIET T}, Relation.ReflTransGen RauzyTop a b → Relation.ReflTransGen RauzyStep a b := by
      intro a b h
      induction h with
      | refl => exact .refl
      | tail _ h ih => exact ih.tail (.inl h)
    exact key h1.1
  obtain ⟨X, hX⟩ := (hC.exists_step h2).resolve_left (fun ⟨X, hX⟩ => h1.2 X hX)
  have s2 : Relation.TransGen RauzyTop C.inv B.inv := by
    rcases Relation.reflTransGen_iff_eq_or_transGen.mp h3.1 with e | e
    · exact absurd (e ▸ hX) (h3.2 X)
    · exact e
  have s3 : Relation.TransGen RauzyStep C B := by
    have hl : ∀ {a b : AIET T}, RauzyTop a b → RauzyStep a.inv b.inv := fun h => .inr (by rwa [AIET.inv_inv, AIET.inv_inv])
    have key : ∀ {a b : AIET T}, Relation.TransGen RauzyTop a b → Relation.TransGen RauzyStep a.inv b.inv := by
      intro a b h
      induction h with
      | single h => exact .single (hl h)
      | tail _ h ih => exact ih.tail (hl h)
    have := key s2
    rwa [AIET.inv_inv, AIET.inv_inv] at this
  exact Relation.TransGen.trans_right s1 s3

theorem Iter.snoc {X : Type} {R : X → X → Prop} : ∀ {n : ℕ} {x z : X}, Iter R (n + 1) x z → ∃ y, Iter R n x y ∧ R y z
  | 0, _, _, ⟨_, h, e⟩ => ⟨_, rfl, e ▸ h⟩
  | n + 1, _, _, ⟨w, h, h'⟩ => by
    obtain ⟨y, h1, h2⟩ := Iter.snoc (n := n) h'
    exact ⟨y, ⟨w, h, h1⟩, h2⟩

theorem Iter.shorter {X : Type} {R : X → X → Prop} {n : ℕ} : ∀ {m : ℕ} {x z : X}, Iter R (n + m) x z → ∃ y, Iter R n x y
  | 0, _, z, h => ⟨z, h⟩
  | m + 1, _, _, h => by
    obtain ⟨y, h1, -⟩ := Iter.snoc (n := n + m) h
    exact Iter.shorter h1

theorem Iter.trans' {X : Type} {R : X → X → Prop} {m : ℕ} {z : X} : ∀ {n : ℕ} {x y : X}, Iter R n x y → Iter R m y z → Iter R (n + m) x z
  | 0, _, _, h, h' => by rw [Nat.zero_add]; exact h ▸ h'
  | n + 1, _, _, ⟨w, h, h1⟩, h' => by
    rw [show n + 1 + m = n + m + 1 by omega]
    exact ⟨w, h, Iter.trans' h1 h'⟩

theorem rounds_valid : ∀ {n : ℕ} {A B : AIET T}, A.Valid → Iter Round n A B → B.Valid
  | 0, _, _, hA, h => h ▸ hA
  | _ + 1, _, _, hA, ⟨_, h, h'⟩ => rounds_valid (h.valid hA) h'

theorem rounds_steps : ∀ {n : ℕ} {A B : AIET T}, A.Valid → Iter Round n A B → Steps A B
  | 0, _, _, _, h => h ▸ .refl
  | _ + 1, _, _, hA, ⟨_, h, h'⟩ => (h.transGen hA).to_reflTransGen.trans (rounds_steps (h.valid hA) h')

theorem rounds_unique : ∀ {n : ℕ} {A B C : AIET T}, A.Valid → Iter Round n A B → Iter Round n A C → B = C
  | 0, _, _, _, _, h, h' => h.symm.trans h'
  | n + 1, A, _, _, hA, ⟨w, h, h1⟩, ⟨w', h', h1'⟩ => by
    have e := Round.unique hA h h'
    subst e
    exact rounds_unique (h.valid hA) h1 h1'

/-- After `N` rounds, there is nothing that is not settled. -/
def Settles {d : ℕ} (c : T →+ (Fin d → ℚ)) (A : AIET T) (N : ℕ) : Prop := ∀ n, N ≤ n → ∀ B, Iter Round n A B → B.Irreducible → ¬ PosRelation c B

theorem Settles.shift {d : ℕ} {c : T →+ (Fin d → ℚ)} {A B : AIET T} {N n : ℕ} (h : Settles c A N) (hr : Iter Round n A B) : Settles c B (N - n) :=
  fun k hk C hC => h (n + k) (by omega) C (Iter.trans' hr hC)

/-- **Everything settles after finitely many rounds.** -/
theorem exists_settles [Archimedean T] (c : T →+ (Fin 2 → ℚ)) (hc : ∀ x, c x = 0 → x = 0) {A : AIET T} (hA : A.Valid) : ∃ N, Settles c A N := by
  by_contra hno
  unfold Settles at hno
  push Not at hno
  have hall : ∀ n, ∃ B, Iter Round n A B := by
    intro n
    obtain ⟨m, hm, B, hB, -⟩ := hno n
    obtain ⟨k, rfl⟩ := Nat.exists_eq_add_of_le hm
    exact hB.shorter
  choose F hF using hall
  have hstep : ∀ n, Round (F n) (F (n + 1)) := by
    intro n
    obtain ⟨y, h1, h2⟩ := (hF (n + 1)).snoc
    rwa [rounds_unique hA (hF n) h1]
  obtain ⟨E, e1, e2, e3⟩ := exists_flat (fun n => (hstep n).transGen (rounds_valid hA (hF n)))
  have h0 : F 0 = A := (show A = F 0 from hF 0).symm
  have hp : RauzyPath E := ⟨by rw [e1, h0]; exact hA, e2⟩
  have hirr : Often (fun m => (E m).Irreducible) := by
    intro m
    obtain ⟨n, hn, B, hB, hi, -⟩ := hno m
    obtain ⟨k, hk, e⟩ := e3 n
    refine ⟨k, by omega, ?_⟩
    show (E k).Irreducible
    rw [e, ← rounds_unique hA hB (hF n)]
    exact hi
  obtain ⟨M, hM⟩ := hp.not_posRelation hirr c hc
  obtain ⟨n, hn, B, hB, -, hrel⟩ := hno M
  obtain ⟨k, hk, e⟩ := e3 n
  refine hM k (by omega) ?_
  rw [e, ← rounds_unique hA hB (hF n)]
  exact hrel

/-! ### Decomposition steps -/

variable {σ ε : Type} {O : LengthsOps σ T} {d : ℕ} {c : T →+ (Fin d → ℚ)} {H : LawfulLengths O c ε} {A₀ : AIET T} {R : List Conn} {au : Bool → Prop}

/-- When the limit is reached, then this many rounds of induction have been performed and nothing has been settled. -/
theorem bounded_rounds {L : PPL} (hL : L.Lawful) (hc : ∀ x, c x = 0 → x = 0) {D D' : Decomp σ T} (hinv : D.Inv H (AddMonoidHom.id T) A₀ R au) {i : ℕ} {x : Comp T}
    (hi : D.comps[i]? = some x) {limit : ℕ} {step : DStep}
    (hr : D.decompositionStepBounded L O limit i = .ok (step, D')) (hres : step.result = .limitReached) :
    ∃ x', D'.comps[i]? = some x' ∧ D'.Inv H (AddMonoidHom.id T) A₀ R au ∧ Iter Round limit (H.abs x.iet D.lengths.inner) (H.abs x'.iet D'.lengths.inner) ∧
      (H.abs x'.iet D'.lengths.inner).Irreducible ∧ PosRelation c (H.abs x'.iet D'.lengths.inner) ∧ x.iet.top.length ≠ 1 := by
  have hx := List.mem_of_getElem? hi
  have hlimit : (limit : ℤ) ≠ -1 := by omega
  obtain ⟨st', D₁, q1, q2, q3, q4, -⟩ := decompositionStepBounded_spec (fun _ _ h => h) hL hinv hi hlimit
  rw [q1] at hr
  cases hr
  have hinv' : D'.Inv H (AddMonoidHom.id T) A₀ R au := by
    obtain ⟨x', e1, e2, e3, e4, e5⟩ := q3.limit hres
    rw [e5, Option.toList_none, List.append_nil] at q2
    simpa [AutoReport, hres] using q2
  have hk : ¬ (x.cylinder = some true ∧ x.keane = some true) := fun h' => (hinv.flags x hx).keane h'.2
  set s : LWC σ := { D.lengths with others := D.others i } with hs
  have hg : (LWC.lawful H).Good x.iet s := LWC.good_congr (hinv.good x hx) rfl rfl rfl
  set E₀ : IET T := { x.iet with safCache := some (safList c ((LWC.lawful H).unswapped x.iet s)) } with hE₀
  have hgE : (LWC.lawful H).Good E₀ s := hg.setCache
  set cost : Option ℤ := if ∀ v ∈ safList c (H.abs x.iet s.inner), v = 0 then none else some 64 with hcost
  have hcost' : ∀ v, cost = some v → 0 < v := by
    intro v hv
    rw [hcost] at hv
    split at hv
    · cases hv
    · cases hv; norm_num
  obtain ⟨n, ist, E', s', k1, k2, k3, k4, k5, k6⟩ := chunks_induce H hL cost hcost' ((limit : ℤ).toNat + 1) limit E₀ s hlimit (Nat.lt_succ_self _) hgE
  have hset : (D.comps.set i ({ x with iet := E' } : Comp T))[i]? = some { x with iet := E' } := by
    rw [List.getElem?_set_self (List.getElem?_eq_some_iff.mp hi).1]
  have hrun : D.decompositionStepBounded L O limit i =
      Decomp.conclude { comps := D.comps.set i { x with iet := E' }, lengths := s' } i ist := by
    unfold Decomp.decompositionStepBounded
    simp only [Decomp.comp_ok hi, assertM, bind, Except.bind]
    rw [if_pos (decide_eq_true hk)]
    simp only
    rw [boshernitzanCost_spec H hg]
    simp only
    rw [k4]
    rfl
  rw [hrun] at q1
  obtain ⟨e', hD'⟩ := conclude_limitReached q1 hres
  subst hD'
  refine ⟨{ x with iet := E' }, hset, hinv', ?_⟩
  have hn := k6 e'
  have hsize : x.iet.top.length ≠ 1 := by
    intro h1
    unfold IET.induce at k5
    have : E₀.size = 1 := h1
    simp only [this, if_true, pure, Except.pure] at k5
    cases k5
    cases e'
  have hrounds := induce_rounds (LWC.lawful H) hL hgE k5
  cases hrounds with
  | cylinder => cases e'
  | auto => cases e'
  | @all E₁ _ _ _ _ hit hf =>
    cases hf with
    | separating => cases e'
    | nonSeparating => cases e'
    | boshernitzan => cases e'
    | limit t1 t2 t3 t4 t5 =>
      have hE : (LWC.lawful H).abs E' s' = (LWC.lawful H).abs E₁ s' := by
        simp only [LawfulLengths.abs, t1, t2]
      rw [← hE] at hit t3 t5
      rw [hn, Int.toNat_natCast] at hit
      refine ⟨hit, t3, ?_, hsize⟩
      rcases t5 with t5 | t5
      · exact posRelation_of_saf hc (rounds_valid hgE.ok.valid hit) t5
      · exact t5
  | found _ _ _ hf hh =>
    cases hf with
    | separating => cases e'
    | nonSeparating => cases e'
    | boshernitzan => cases e'
    | limit _ _ _ t4 => exact absurd hh t4

/-- So many rounds of induction are possible that the limit, an `int`, might overflow. -/
def LongRun (A : AIET T) : Prop := ∃ n B, 2 ^ 30 - 1 ≤ n ∧ Iter Round n A B

/-- The loop without a limit. -/
theorem unlimited_settles {L : PPL} (hL : L.Lawful) (hc : ∀ x, c x = 0 → x = 0) {cost : Option ℤ} (hcost : cost = none ∨ cost = some 64) {i : ℕ} :
    ∀ (K N limit : ℕ) (D : Decomp σ T) (x : Comp T), N + (if limit = 0 then 1 else 0) ≤ K → D.Inv H (AddMonoidHom.id T) A₀ R au → D.comps[i]? = some x →
    Settles c (H.abs x.iet D.lengths.inner) N →
    ∃ r, (∀ n, K + 1 ≤ n → Decomp.unlimited L O cost i n limit D = r) ∧
      ((∃ step D', r = .ok (step, D')) ∨ (r = .error .ub ∧ cost = none ∧ LongRun (H.abs x.iet D.lengths.inner))) := by
  intro K
  induction K with
  | zero =>
    intro N limit D x hK hinv hi hS
    have hN : N = 0 := by omega
    subst hN
    obtain ⟨step, D', h1, -⟩ := decompositionStepBounded_spec (fun _ _ h => h) hL hinv hi (limit := (limit : ℤ)) (by omega)
    refine ⟨.ok (step, D'), fun n hn => ?_, .inl ⟨_, _, rfl⟩⟩
    obtain ⟨n, rfl⟩ : ∃ m, n = m + 1 := ⟨n - 1, by omega⟩
    have hr : step.result ≠ .limitReached := by
      intro hr
      obtain ⟨x', -, -, h2, h3, h4, -⟩ := bounded_rounds hL hc hinv hi h1 hr
      exact hS limit (Nat.zero_le _) _ h2 h3 h4
    simp only [Decomp.unlimited, h1, bind, Except.bind]
    rw [if_pos hr]
    rfl
  | succ K ih =>
    intro N limit D x hK hinv hi hS
    obtain ⟨step, D', h1, -⟩ := decompositionStepBounded_spec (fun _ _ h => h) hL hinv hi (limit := (limit : ℤ)) (by omega)
    by_cases hr : step.result = .limitReached
    · obtain ⟨x', hi', hinv', h2, h3, h4, -⟩ := bounded_rounds hL hc hinv hi h1 hr
      have hlt : limit < N := by
        by_contra hge
        exact hS limit (not_lt.mp hge) _ h2 h3 h4
      have hS' := hS.shift h2
      have hlong : LongRun (H.abs x'.iet D'.lengths.inner) → LongRun (H.abs x.iet D.lengths.inner) := by
        rintro ⟨n, B, hn, hB⟩
        exact ⟨limit + n, B, by omega, h2.trans' hB⟩
      rcases hcost with rfl | rfl
      · by_cases hm : 2 * ((limit : ℤ) + 1) ≤ Decomp.intMax
        · have hcast : (2 * ((limit : ℤ) + 1)) = ((2 * (limit + 1) : ℕ) : ℤ) := by push_cast; ring
          obtain ⟨r, g1, g2⟩ := ih (N - limit) (2 * (limit + 1)) D' x' (by
            rw [if_neg (by omega)]
            by_cases h0 : limit = 0
            · rw [if_pos h0] at hK; omega
            · rw [if_neg h0] at hK; omega) hinv' hi' hS'
          refine ⟨r, fun n hn => ?_, g2.imp_right (fun h => ⟨h.1, h.2.1, hlong h.2.2⟩)⟩
          obtain ⟨n, rfl⟩ : ∃ m, n = m + 1 := ⟨n - 1, by omega⟩
          simp only [Decomp.unlimited, h1, bind, Except.bind]
          rw [if_neg (by simpa using hr), if_pos hm, hcast]
          exact g1 n (by omega)
        · refine ⟨.error .ub, fun n hn => ?_, .inr ⟨rfl, rfl, limit, _, ?_, h2⟩⟩
          · obtain ⟨n, rfl⟩ : ∃ m, n = m + 1 := ⟨n - 1, by omega⟩
            simp only [Decomp.unlimited, h1, bind, Except.bind]
            rw [if_neg (by simpa using hr), if_neg hm]
          · unfold Decomp.intMax at hm
            omega
      · obtain ⟨r, g1, g2⟩ := ih (N - limit) 64 D' x' (by
            rw [if_neg (by omega)]
            by_cases h0 : limit = 0
            · rw [if_pos h0] at hK; omega
            · rw [if_neg h0] at hK; omega) hinv' hi' hS'
        refine ⟨r, fun n hn => ?_, g2.imp_right (fun h => ⟨h.1, h.2.1, hlong h.2.2⟩)⟩
        obtain ⟨n, rfl⟩ : ∃ m, n = m + 1 := ⟨n - 1, by omega⟩
        simp only [Decomp.unlimited, h1, bind, Except.bind]
        rw [if_neg (by simpa using hr)]
        exact g1 n (by omega)
    · refine ⟨.ok (step, D'), fun n hn => ?_, .inl ⟨_, _, rfl⟩⟩
      obtain ⟨n, rfl⟩ : ∃ m, n = m + 1 := ⟨n - 1, by omega⟩
      simp only [Decomp.unlimited, h1, bind, Except.bind]
      rw [if_pos hr]
      rfl

/-- A step without a limit starts with a step with limit zero. -/
theorem unlimited_eq {L : PPL} {D : Decomp σ T} (hinv : D.Inv H (AddMonoidHom.id T) A₀ R au) {i : ℕ} {x : Comp T}
    (hi : D.comps[i]? = some x) :
    ∃ y : Comp T, (D.setComp i y).comps[i]? = some y ∧ (D.setComp i y).Inv H (AddMonoidHom.id T) A₀ R au ∧ y.iet.top = x.iet.top ∧
      y.iet.bottom = x.iet.bottom ∧ ∀ fuel, D.decompositionStep L O fuel (-1) i =
        Decomp.unlimited L O (if ∀ v ∈ safList c (H.abs x.iet D.lengths.inner), v = 0 then none else some 64) i fuel ((0 : ℕ) : ℤ) (D.setComp i y) := by
  have hx := List.mem_of_getElem? hi
  have hk : ¬ (x.cylinder = some true ∧ x.keane = some true) := fun h' => (hinv.flags x hx).keane h'.2
  refine ⟨{ x with iet := { x.iet with safCache := some (safList c ((LWC.lawful H).unswapped x.iet D.lengths)) } }, ?_, hinv.setCache hi, rfl, rfl, ?_⟩
  · simp only [Decomp.setComp]
    rw [List.getElem?_set_self (List.getElem?_eq_some_iff.mp hi).1]
  · intro fuel
    unfold Decomp.decompositionStep
    rw [if_pos rfl]
    simp only [Decomp.comp_ok hi, assertM, bind, Except.bind]
    rw [if_pos (decide_eq_true hk)]
    simp only
    rw [boshernitzanCost_spec H (hinv.good x hx)]
    rfl

/-- A step of a decomposition without a limit. -/
theorem step_settles {L : PPL} (hL : L.Lawful) (hc : ∀ x, c x = 0 → x = 0) {D : Decomp σ T} (hinv : D.Inv H (AddMonoidHom.id T) A₀ R au) {i : ℕ} {x : Comp T}
    (hi : D.comps[i]? = some x) {N : ℕ} (hS : Settles c (H.abs x.iet D.lengths.inner) N) :
    ∃ r, (∀ n, N + 2 ≤ n → D.decompositionStep L O n (-1) i = r) ∧
      ((∃ step D', r = .ok (step, D')) ∨
        (r = .error .ub ∧ (∀ v ∈ safList c (H.abs x.iet D.lengths.inner), v = 0) ∧ LongRun (H.abs x.iet D.lengths.inner))) := by
  obtain ⟨y, hi', hinv', e1, e2, hrun⟩ := unlimited_eq (L := L) hinv hi
  set cost : Option ℤ := if ∀ v ∈ safList c (H.abs x.iet D.lengths.inner), v = 0 then none else some 64 with hcost
  have habs : H.abs y.iet (D.setComp i y).lengths.inner = H.abs x.iet D.lengths.inner := by simp only [LawfulLengths.abs, e1, e2, Decomp.setComp]
  have hcost' : cost = none ∨ cost = some 64 := by
    rw [hcost]; split
    · exact .inl rfl
    · exact .inr rfl
  obtain ⟨r, h1, h2⟩ := unlimited_settles hL hc hcost' (N + 1) N 0 (D.setComp i y) y (by simp) hinv' hi' (by rw [habs]; exact hS)
  rw [habs] at h2
  refine ⟨r, fun n hn => by rw [hrun]; exact h1 n (by omega), h2.imp_right fun ⟨a1, a2, a3⟩ => ⟨a1, ?_, a3⟩⟩
  by_contra hne
  rw [hcost, if_neg hne] at a2
  cases a2

end Verif
